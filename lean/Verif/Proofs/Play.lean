import Verif.Proofs.Shared

/-!
# Helper lemmas for probabilities with shared state
-/

namespace RG
open Prog
variable {W α β : Type}

/-- The value of `f` at a normal result, and 0 otherwise. -/
def normal (f : α → ℚ) (x : Res α × W) : ℚ := onOk f x.1

/-! ### Refinement and probabilities -/

/-- As long as the shared state satisfies `Inv`, every way to schedule `s` keeps `Inv`, and gives the normal results the distribution that
they have in `p`. -/
def Fair (Inv : W → Prop) (s : Play W α) (p : List W → Prog α) : Prop :=
  ∀ w q, Inv w → s w q → Always (fun x => Inv x.2) q ∧ ∀ ws f, q.expect (onOk (normal f)) = (p ws).expect (onOk f)

namespace Fair
variable {Inv : W → Prop}

theorem pure (a : α) : Fair Inv (Pure.pure a : Play W α) fun _ => Pure.pure a := fun w q hw h => by
  have : q = .done (.ok (.ok a, w)) := h
  subst this
  exact ⟨fun r hr => ⟨_, hr, hw⟩, fun _ _ => rfl⟩

theorem lift (x : Res α) : Fair Inv (Play.lift x : Play W α) fun _ => Prog.lift x := fun w q hw h => by
  have : q = .done (.ok (x, w)) := h
  subst this
  exact ⟨fun r hr => ⟨_, hr, hw⟩, fun _ _ => rfl⟩

theorem call {others : W → W → Prop} (ho : ∀ w w', Inv w → others w w' → Inv w') {s : SProg W α} {p : Prog α}
    (h : Refines Inv s p) : Fair Inv (Play.call others s) fun _ => p := by
  induction h with
  | done r => exact lift r
  | pick n k k' h ih =>
    rintro w q hw ⟨k2, rfl, hk⟩
    refine ⟨fun r ⟨i, hi, hr⟩ => (ih i hi w _ hw (hk i hi)).1 r hr, fun ws f => ?_⟩
    simp only [expect_pick]
    congr 1
    refine Finset.sum_congr rfl fun i hi => ?_
    have hi : i ≤ n := by have := Finset.mem_range.1 hi; omega
    exact (ih i hi w _ hw (hk i hi)).2 ws f
  | touch new k p keep h ih =>
    rintro w q hw ⟨w1, h1, hq⟩
    exact ih w1 (ho _ _ hw h1) _ _ (keep _ (ho _ _ hw h1)) hq

theorem par {others : W → W → Prop} (ho : ∀ w w', Inv w → others w w' → Inv w') {tasks : List (SProg W α)} {ps : List (Prog α)}
    (h : List.Forall₂ (Refines Inv) tasks ps) : Fair Inv ((plays others).par tasks) fun _ => inOrder ps := by
  intro w q hw hq
  replace hq : ParPlay others tasks w q := hq
  suffices Always (fun x => Inv x.2) q ∧ ∀ f, q.expect (onOk (normal f)) = mass ps f from
    ⟨this.1, fun _ f => by rw [mass_inOrder]; exact this.2 f⟩
  induction hq generalizing ps with
  | finished as w =>
    refine ⟨fun r hr => ⟨_, hr, hw⟩, fun f => ?_⟩
    have : ps = as.map fun a => Prog.done (.ok a) := by
      rw [List.forall₂_map_left_iff] at h
      induction h with
      | nil => rfl
      | cons h1 _ ih => cases h1; rw [List.map_cons, ← ih]
    rw [this, mass_finished]
    rfl
  | failed tasks w r r' mem fails =>
    refine ⟨fun r hr => ⟨_, hr, hw⟩, fun f => ?_⟩
    have : Prog.done r ∈ ps := by
      clear fails hw
      induction h with
      | nil => cases mem
      | cons h1 _ ih =>
        rcases List.mem_cons.1 mem with e | mem
        · rw [← e] at h1; cases h1; exact List.mem_cons_self
        · exact List.mem_cons_of_mem _ (ih mem)
    rw [mass_failed ps r (by rcases fails with h | h <;> simp [h.1]) this]
    rcases fails with ⟨-, rfl⟩ | ⟨-, rfl⟩ <;> rfl
  | draw before n k after w q next ih =>
    obtain ⟨l1, p, l2, rfl, h1, h2, h3⟩ := (forall₂_split _ _ _ _).1 h
    cases h2 with
    | pick _ _ k' hk =>
      have key := fun i hi => ih i hi ((forall₂_split _ _ _ _).2 ⟨l1, _, l2, rfl, h1, hk i hi, h3⟩) hw
      refine ⟨fun r ⟨i, hi, hr⟩ => (key i hi).1 r hr, fun f => ?_⟩
      rw [mass_draw, expect_pick]
      congr 1
      refine Finset.sum_congr rfl fun i hi => (key i ?_).2 f
      have := Finset.mem_range.1 hi; omega
  | access before new k after w w1 q change next ih =>
    obtain ⟨l1, p, l2, rfl, h1, h2, h3⟩ := (forall₂_split _ _ _ _).1 h
    cases h2 with
    | touch _ _ _ keep hk =>
      have hw1 := ho _ _ hw change
      exact ih ((forall₂_split _ _ _ _).2 ⟨l1, _, l2, rfl, h1, hk w1 hw1, h3⟩) (keep _ hw1)

theorem follow {F : α → Play W β} {G : α → (β → ℚ) → ℚ}
    (hF : ∀ a w q, Inv w → F a w q → Always (fun x => Inv x.2) q ∧ ∀ f, q.expect (onOk (normal f)) = G a f)
    {q1 : Prog (Res α × W)} {q : Prog (Res β × W)} (h1 : Always (fun x => Inv x.2) q1) (h : Play.follow F q1 q) :
    Always (fun x => Inv x.2) q ∧ ∀ f, q.expect (onOk (normal f)) = q1.expect (onOk (normal fun a => G a f)) := by
  induction q1 generalizing q with
  | done r =>
    obtain ⟨⟨x, w⟩, rfl, hw⟩ := h1 r rfl
    cases x with
    | ok a => exact hF a w q hw h
    | panic =>
      have : q = .done (.ok (.panic, w)) := h
      subst this
      exact ⟨fun r hr => ⟨_, hr, hw⟩, fun _ => rfl⟩
    | diverge =>
      have : q = .done (.ok (.diverge, w)) := h
      subst this
      exact ⟨fun r hr => ⟨_, hr, hw⟩, fun _ => rfl⟩
  | pick n k ih =>
    obtain ⟨k', rfl, hk⟩ := h
    have key := fun i hi => ih i (q := k' i) (fun r hr => h1 r ⟨i, hi, hr⟩) (hk i hi)
    refine ⟨fun r ⟨i, hi, hr⟩ => (key i hi).1 r hr, fun f => ?_⟩
    simp only [expect_pick]
    congr 1
    refine Finset.sum_congr rfl fun i hi => (key i ?_).2 f
    have := Finset.mem_range.1 hi; omega

theorem bind {s : Play W α} {p : List W → Prog α} (h : Fair Inv s p) {f : α → Play W β} {g : List W → α → Prog β}
    (hf : ∀ a, Fair Inv (f a) fun ws => g ws a) : Fair Inv (s >>= f) fun ws => p ws >>= g ws := by
  rintro w q hw ⟨q1, h1, h2⟩
  obtain ⟨k1, k2⟩ := h w q1 hw h1
  refine ⟨(follow (F := f) (G := fun a F => (g [] a).expect (onOk F)) (fun a w q hw hq => ⟨(hf a w q hw hq).1, (hf a w q hw hq).2 []⟩) k1 h2).1,
    fun ws F => ?_⟩
  rw [(follow (F := f) (G := fun a F => (g ws a).expect (onOk F)) (fun a w q hw hq => ⟨(hf a w q hw hq).1, (hf a w q hw hq).2 ws⟩) k1 h2).2,
    k2 ws, expect_bind]
  refine expect_congr _ _ _ fun r _ => ?_
  cases r <;> rfl

theorem closed (others : W → W → Prop) (Inv : W → Prop) : Closed (plays others) (Fair Inv) := ⟨pure, lift, bind⟩

end Fair

variable {I : Type} [Individual I] {Mo U A P Q : Type}

theorem fair_model {Inv : W → Prop} {others : W → W → Prop} (ho : ∀ w w', Inv w → others w w' → Inv w')
    {M : SharedModel I Mo U W} {N : EvoModel I Mo U} (h : ModelRefines Inv M N) (hx : N.extendWith = defaultExtendWith N.toEvoOps) :
    ModelRel (Fair Inv) (plays others) M fun _ => N where
  evaluates m l := by
    refine Fair.par ho ?_
    rw [List.forall₂_map_left_iff, List.forall₂_map_right_iff]
    exact List.forall₂_same.2 fun a _ => h.evaluate m a
  mutates m n x := Fair.par ho (forall₂_replicate (h.mutate m x) n)
  breeds env m p r n := Fair.par ho (forall₂_replicate (h.breed env m p r) n)
  breed env m p r := Fair.call ho (h.breed env m p r)
  preGeneration m p r := Fair.call ho (h.preGeneration m p r)
  prepared ws env p s := by
    cases s with
    | builtin s => rfl
    | custom u => exact congrArg (fun f => DynSel.custom (f u p)) h.prepare
  extendWith _ := hx

/-! ### Two interpretations of the same code -/

/-- A relation between two interpretations, closed under everything a run does. -/
structure Bridge {m m' : Type → Type} [Monad m] [Monad m'] (D : Domain W m) (D' : Domain W m')
    (Rel : ∀ {α : Type}, m α → m' α → Prop) : Prop where
  pure : ∀ {α : Type} (a : α), Rel (Pure.pure a) (Pure.pure a)
  lift : ∀ {α : Type} (x : Res α), Rel (D.lift x) (D'.lift x)
  call : ∀ {α : Type} (p : SProg W α), Rel (D.call p) (D'.call p)
  par : ∀ {α : Type} (ps : List (SProg W α)), Rel (D.par ps) (D'.par ps)
  bind : ∀ {α β : Type} {s : m α} {s' : m' α}, Rel s s' → ∀ {f : α → m β} {f' : α → m' β}, (∀ a, Rel (f a) (f' a)) →
    Rel (s >>= f) (s' >>= f')

/-- Two interpretations of an algorithm. -/
structure AlgoBridge {m m' : Type → Type} (Rel : ∀ {α : Type}, m α → m' α → Prop) (S : SharedAlgo I Mo A P m)
    (S' : SharedAlgo I Mo A P m') : Prop where
  initialSize : S'.initialSize = S.initialSize
  model : S'.model = S.model
  configure : S'.configure = S.configure
  selectElites : S'.selectElites = S.selectElites
  replace : S'.replace = S.replace
  initPopulation : ∀ env a l, Rel (S.initPopulation env a l) (S'.initPopulation env a l)
  prepare : ∀ env a p, Rel (S.prepare env a p) (S'.prepare env a p)
  generate : ∀ env a p l, Rel (S.generate env a p l) (S'.generate env a p l)

section
variable {m m' : Type → Type} [Monad m] [Monad m'] {D : Domain W m} {D' : Domain W m'} {Rel : ∀ {α : Type}, m α → m' α → Prop}
  (hR : Bridge D D' Rel) (M : SharedModel I Mo U W)
include hR

theorem bridge_initialize (env : Env I) (mo : Mo) (l : List I) : Rel (sharedInitialize D M env mo l) (sharedInitialize D' M env mo l) :=
  hR.bind (hR.par _) fun _ => hR.lift _

theorem bridge_generate (env : NumEnv) (mo : Mo) (repro : ReproParams U × Nat) (p : Population I) (l : List I) :
    Rel (sharedGenerate D M env mo repro p l) (sharedGenerate D' M env mo repro p l) := by
  obtain ⟨b, size⟩ := repro
  unfold sharedGenerate
  simp only
  rcases size - l.length with _ | _ | n
  · exact hR.pure _
  · exact hR.bind (hR.call _) fun _ => hR.pure _
  · exact hR.bind (hR.par _) fun _ => hR.pure _

theorem bridge_ga : AlgoBridge Rel (sharedGa D M) (sharedGa D' M) where
  initialSize := rfl
  model := rfl
  configure := rfl
  selectElites := rfl
  replace := rfl
  initPopulation env a l := bridge_initialize hR M env a.model l
  generate env a p l := bridge_generate hR M env a.model (a.breeding, a.populationSize) p l
  prepare _ _ _ := hR.bind (hR.call _) fun _ => hR.pure _

theorem bridge_aga : AlgoBridge Rel (sharedAga D M) (sharedAga D' M) where
  initialSize := rfl
  model := rfl
  configure := rfl
  selectElites := rfl
  replace := rfl
  initPopulation env a l := bridge_initialize hR M env a.model l
  generate env a p l := bridge_generate hR M env a.model (a.breeding, a.populationSize) p l
  prepare _ _ _ := hR.bind (hR.call _) fun _ => hR.pure _

variable {S : SharedAlgo I Mo A P m} {S' : SharedAlgo I Mo A P m'} (hS : AlgoBridge Rel S S')
include hS

omit M in
theorem bridge_step (env : Env I) (st : RunState I A Q) : Rel (sharedStep D S env st) (sharedStep D' S' env st) := by
  unfold sharedStep
  refine hR.bind (hS.prepare _ _ _) fun a => ?_
  simp only [hS.selectElites, hS.replace]
  exact hR.bind (hR.lift _) fun l => hR.bind (hS.generate _ _ _ _) fun l' => hR.bind (hR.lift _) fun r => hR.pure _

omit M in
theorem bridge_population (envs : Nat → Env I) (progress : Q → Population I → SProg W (Bool × Q)) (fuel : Nat) (a : A) (init : List I)
    (p : P) (q : Q) :
    Rel (sharedPopulation D S envs progress fuel a init p q) (sharedPopulation D' S' envs progress fuel a init p q) := by
  have loop : ∀ fuel t (st : RunState I A Q), Rel (sharedLoop D S envs progress fuel t st) (sharedLoop D' S' envs progress fuel t st) := by
    intro fuel
    induction fuel with
    | zero => exact fun _ _ => hR.pure _
    | succ fuel ih =>
      intro t st
      unfold sharedLoop
      refine hR.bind (hR.call _) fun cq => ?_
      obtain ⟨c, q⟩ := cq
      cases c with
      | false => exact hR.pure _
      | true => exact hR.bind (bridge_step hR hS _ _) fun st => ih _ _
  unfold sharedPopulation
  simp only [hS.configure]
  exact hR.bind (hR.lift _) fun a' => hR.bind (hS.initPopulation _ _ _) fun pop => loop _ _ _

omit hS M [Individual I] in
theorem bridge_result (r : Bool × RunState I A Q) : Rel (sharedResult D r) (sharedResult D' r) := by
  unfold sharedResult
  split
  · exact hR.bind (hR.lift _) fun x => hR.pure _
  · exact hR.pure _

omit M in
theorem bridge_random (envs : Nat → Env I) (progress : Q → Population I → SProg W (Bool × Q)) (fuel : Nat) (a : A)
    (newRandom : SProg W I) (p : P) (q : Q) :
    Rel (sharedRandom D S envs progress fuel a newRandom p q) (sharedRandom D' S' envs progress fuel a newRandom p q) := by
  unfold sharedRandom sharedExtend
  simp only [hS.initialSize]
  have rest := fun l => hR.bind (bridge_population hR hS envs progress fuel a l p q) fun r => bridge_result hR r
  refine hR.bind ?_ rest
  split
  · exact hR.pure _
  · exact hR.bind (hR.par _) fun _ => hR.pure _

theorem bridge_individual (envs : Nat → Env I) (progress : Q → Population I → SProg W (Bool × Q)) (fuel : Nat) (a : A) (x : I) (p : P)
    (q : Q) :
    Rel (sharedIndividual D M S envs progress fuel a x p q) (sharedIndividual D' M S' envs progress fuel a x p q) := by
  unfold sharedIndividual sharedExtendWith
  simp only [hS.initialSize, hS.model]
  have rest := fun l => hR.bind (bridge_population hR hS envs progress fuel a l p q) fun r => bridge_result hR r
  refine hR.bind ?_ rest
  split
  · exact hR.pure _
  · split
    · exact hR.pure _
    · exact hR.bind (hR.lift _) fun _ => hR.bind (hR.par _) fun _ => hR.pure _

end

/-! ### Outcomes and plays -/

/-- There is a way to schedule `t`, none of them fails without an outcome, and together they have the outcomes of `s`. -/
def Same (s : Sem W α) (t : Play W α) : Prop :=
  (∀ w, ∃ q, t w q) ∧ ∀ w r w', s w r w' ↔ ∃ q, t w q ∧ q.yields (.ok (r, w'))

namespace Same

theorem pure (a : α) : Same (Pure.pure a : Sem W α) (Pure.pure a : Play W α) := by
  refine ⟨fun w => ⟨_, rfl⟩, fun w r w' => ⟨fun ⟨h1, h2⟩ => ⟨_, rfl, ?_⟩, ?_⟩⟩
  · rw [h1, h2]; rfl
  · rintro ⟨q, hq, h⟩
    have : q = .done (.ok (.ok a, w)) := hq
    subst this
    cases h
    exact ⟨rfl, rfl⟩

theorem lift (x : Res α) : Same (Sem.lift x : Sem W α) (Play.lift x) := by
  refine ⟨fun w => ⟨_, rfl⟩, fun w r w' => ⟨fun ⟨h1, h2⟩ => ⟨_, rfl, ?_⟩, ?_⟩⟩
  · rw [h1, h2]; rfl
  · rintro ⟨q, hq, h⟩
    have : q = .done (.ok (x, w)) := hq
    subst this
    cases h
    exact ⟨rfl, rfl⟩

/-- One branch of a draw is given, the others are arbitrary. -/
theorem branch {T : Nat → Prog β → Prop} {n i : Nat} (hT : ∀ j, j ≤ n → ∃ q, T j q) {q0 : Prog β} (h0 : T i q0) :
    ∃ k : Nat → Prog β, k i = q0 ∧ ∀ j, j ≤ n → T j (k j) := by
  classical
  refine ⟨fun j => if hj : j = i then q0 else if hn : j ≤ n then (hT j hn).choose else .done .panic, dif_pos rfl, fun j hj => ?_⟩
  dsimp only
  split
  · rename_i e; rw [e]; exact h0
  · exact (hT j hj).choose_spec

theorem call {others : W → W → Prop} (hr : ∀ w, others w w) (p : SProg W α) : Same (Sem.call others p) (Play.call others p) := by
  induction p with
  | done r => exact lift r
  | pick n k ih =>
    have tot : ∀ w, ∀ j, j ≤ n → ∃ q, Play.call others (k j) w q := fun w j _ => (ih j).1 w
    refine ⟨fun w => ?_, fun w r w' => ⟨?_, ?_⟩⟩
    · obtain ⟨q0, h0⟩ := (ih 0).1 w
      obtain ⟨k', -, hk⟩ := branch (tot w) h0
      exact ⟨_, k', rfl, hk⟩
    · rintro ⟨i, hi, h⟩
      obtain ⟨q, h1, h2⟩ := ((ih i).2 w r w').1 h
      obtain ⟨k', e, hk⟩ := branch (tot w) h1
      exact ⟨_, ⟨k', rfl, hk⟩, i, hi, by rw [e]; exact h2⟩
    · rintro ⟨q, ⟨k', rfl, hk⟩, i, hi, h⟩
      exact ⟨i, hi, ((ih i).2 w r w').2 ⟨_, hk i hi, h⟩⟩
  | touch new k ih =>
    refine ⟨fun w => ?_, fun w r w' => ⟨?_, ?_⟩⟩
    · obtain ⟨q, h⟩ := (ih w).1 (new w)
      exact ⟨q, w, hr w, h⟩
    · rintro ⟨w1, h1, h⟩
      obtain ⟨q, h2, h3⟩ := ((ih w1).2 _ r w').1 h
      exact ⟨q, ⟨w1, h1, h2⟩, h3⟩
    · rintro ⟨q, ⟨w1, h1, h2⟩, h⟩
      exact ⟨w1, h1, ((ih w1).2 _ r w').2 ⟨q, h2, h⟩⟩

theorem parTotal {others : W → W → Prop} (hr : ∀ w, others w w) (tasks : List (SProg W α)) (bs : List α) (w : W) :
    ∃ q, ParPlay others ((bs.map fun a => .done (.ok a)) ++ tasks) w q := by
  induction tasks generalizing bs w with
  | nil => exact ⟨_, by simpa using ParPlay.finished (others := others) bs w⟩
  | cons t ts ih =>
    induction t generalizing w with
    | done r =>
      cases r with
      | ok a =>
        obtain ⟨q, h⟩ := ih (bs ++ [a]) w
        exact ⟨q, by simpa using h⟩
      | panic => exact ⟨_, .failed _ _ .panic .panic (by simp) (.inl ⟨rfl, rfl⟩)⟩
      | diverge => exact ⟨_, .failed _ _ .diverge .diverge (by simp) (.inr ⟨rfl, rfl⟩)⟩
    | pick n k ihk =>
      choose q hq using fun i => ihk i w
      exact ⟨_, .draw _ _ _ _ _ q fun i _ => hq i⟩
    | touch new k ihk =>
      obtain ⟨q, h⟩ := ihk w (new w)
      exact ⟨q, .access _ _ _ _ _ w _ (hr w) h⟩

theorem par {others : W → W → Prop} (hr : ∀ w, others w w) (tasks : List (SProg W α)) :
    Same (Sem.par others tasks) ((plays others).par tasks) := by
  have tot : ∀ (tasks : List (SProg W α)) w, ∃ q, ParPlay others tasks w q := fun tasks w => parTotal hr tasks [] w
  refine ⟨fun w => tot tasks w, fun w r w' => ⟨fun h => ?_, ?_⟩⟩
  · replace h : Par others tasks w r w' := h
    suffices ∃ q, ParPlay others tasks w q ∧ q.yields (.ok (r, w')) from this
    induction h with
    | finished as w => exact ⟨_, .finished as w, rfl⟩
    | failed tasks w r r' mem fails => exact ⟨_, .failed tasks w r r' mem fails, rfl⟩
    | draw before n k after i hi w w' r next ih =>
      obtain ⟨q, h1, h2⟩ := ih
      obtain ⟨k', e, hk⟩ := branch (T := fun j q => ParPlay others (before ++ k j :: after) w q) (n := n) (fun j _ => tot _ w) h1
      exact ⟨_, .draw _ _ _ _ _ k' hk, i, hi, by rw [e]; exact h2⟩
    | access before new k after w w1 w' r change next ih =>
      obtain ⟨q, h1, h2⟩ := ih
      exact ⟨q, .access _ _ _ _ _ _ _ change h1, h2⟩
  · rintro ⟨q, hq, h⟩
    replace hq : ParPlay others tasks w q := hq
    show Par others tasks w r w'
    induction hq with
    | finished as w => cases h; exact .finished _ _
    | failed tasks w x x' mem fails => cases h; exact .failed _ _ x _ mem fails
    | draw before n k after w q next ih =>
      obtain ⟨i, hi, h⟩ := h
      exact .draw _ _ _ _ i hi _ _ _ (ih i hi h)
    | access before new k after w w1 q change next ih => exact .access _ _ _ _ _ _ _ _ change (ih h)

theorem followTotal {f : α → Play W β} (hf : ∀ a w, ∃ q, f a w q) (q1 : Prog (Res α × W)) : ∃ q, Play.follow f q1 q := by
  induction q1 with
  | done r =>
    rcases r with ⟨x, w⟩ | _ | _
    · cases x with
      | ok a => exact hf a w
      | panic => exact ⟨_, rfl⟩
      | diverge => exact ⟨_, rfl⟩
    · exact ⟨_, rfl⟩
    · exact ⟨_, rfl⟩
  | pick n k ih =>
    choose q hq using ih
    exact ⟨_, q, rfl, fun i _ => hq i⟩

theorem bind {s : Sem W α} {t : Play W α} (h : Same s t) {f : α → Sem W β} {g : α → Play W β} (hf : ∀ a, Same (f a) (g a)) :
    Same (s >>= f) (t >>= g) := by
  have tot := fun q1 => followTotal (f := g) (fun a w => (hf a).1 w) q1
  refine ⟨fun w => ?_, fun w r w' => ⟨?_, ?_⟩⟩
  · obtain ⟨q1, h1⟩ := h.1 w
    obtain ⟨q, h2⟩ := tot q1
    exact ⟨q, q1, h1, h2⟩
  · have go : ∀ {x : Res α} {w1 : W} {q1 : Prog (Res α × W)} {q0 : Prog (Res β × W)}, q1.yields (.ok (x, w1)) →
        Play.follow g (.done (.ok (x, w1))) q0 → q0.yields (.ok (r, w')) → ∃ q, Play.follow g q1 q ∧ q.yields (.ok (r, w')) := by
      intro x w1 q1 q0 hy h0 h1
      induction q1 with
      | done r1 => cases hy; exact ⟨q0, h0, h1⟩
      | pick n k ih =>
        obtain ⟨i, hi, hy⟩ := hy
        obtain ⟨q, h2, h3⟩ := ih i hy
        obtain ⟨k', e, hk⟩ := branch (T := fun j q => Play.follow g (k j) q) (n := n) (fun j _ => tot _) h2
        exact ⟨_, ⟨k', rfl, hk⟩, i, hi, by rw [e]; exact h3⟩
    rintro (⟨a, w1, h1, h2⟩ | ⟨h1, rfl⟩ | ⟨h1, rfl⟩)
    · obtain ⟨q1, h3, h4⟩ := (h.2 _ _ _).1 h1
      obtain ⟨q0, h5, h6⟩ := ((hf a).2 _ _ _).1 h2
      obtain ⟨q, h7, h8⟩ := go h4 h5 h6
      exact ⟨q, ⟨q1, h3, h7⟩, h8⟩
    · obtain ⟨q1, h3, h4⟩ := (h.2 _ _ _).1 h1
      obtain ⟨q, h7, h8⟩ := go h4 (q0 := .done (.ok (.panic, w'))) rfl rfl
      exact ⟨q, ⟨q1, h3, h7⟩, h8⟩
    · obtain ⟨q1, h3, h4⟩ := (h.2 _ _ _).1 h1
      obtain ⟨q, h7, h8⟩ := go h4 (q0 := .done (.ok (.diverge, w'))) rfl rfl
      exact ⟨q, ⟨q1, h3, h7⟩, h8⟩
  · rintro ⟨q, ⟨q1, h1, h2⟩, h3⟩
    have go : ∀ {q1 : Prog (Res α × W)} {q : Prog (Res β × W)}, Play.follow g q1 q → q.yields (.ok (r, w')) →
        ∃ x w1, q1.yields (.ok (x, w1)) ∧ ((∃ a, x = .ok a ∧ ∃ q2, g a w1 q2 ∧ q2.yields (.ok (r, w'))) ∨
          (x = .panic ∧ r = .panic ∧ w1 = w') ∨ (x = .diverge ∧ r = .diverge ∧ w1 = w')) := by
      intro q1 q hq hy
      induction q1 generalizing q with
      | done r1 =>
        rcases r1 with ⟨x, w1⟩ | _ | _
        · cases x with
          | ok a => exact ⟨_, _, rfl, .inl ⟨a, rfl, q, hq, hy⟩⟩
          | panic =>
            have : q = .done (.ok (.panic, w1)) := hq
            subst this
            cases hy
            exact ⟨_, _, rfl, .inr (.inl ⟨rfl, rfl, rfl⟩)⟩
          | diverge =>
            have : q = .done (.ok (.diverge, w1)) := hq
            subst this
            cases hy
            exact ⟨_, _, rfl, .inr (.inr ⟨rfl, rfl, rfl⟩)⟩
        · have : q = .done .panic := hq
          subst this; cases hy
        · have : q = .done .diverge := hq
          subst this; cases hy
      | pick n k ih =>
        obtain ⟨k', rfl, hk⟩ := hq
        obtain ⟨i, hi, hy⟩ := hy
        obtain ⟨x, w1, h1, h2⟩ := ih i (hk i hi) hy
        exact ⟨x, w1, ⟨i, hi, h1⟩, h2⟩
    obtain ⟨x, w1, h4, ⟨a, rfl, q2, h5, h6⟩ | ⟨rfl, rfl, rfl⟩ | ⟨rfl, rfl, rfl⟩⟩ := go h2 h3
    · exact .inl ⟨a, w1, (h.2 _ _ _).2 ⟨q1, h1, h4⟩, ((hf a).2 _ _ _).2 ⟨q2, h5, h6⟩⟩
    · exact .inr (.inl ⟨(h.2 _ _ _).2 ⟨q1, h1, h4⟩, rfl⟩)
    · exact .inr (.inr ⟨(h.2 _ _ _).2 ⟨q1, h1, h4⟩, rfl⟩)

theorem bridge {others : W → W → Prop} (hr : ∀ w, others w w) : Bridge (outcomes others) (plays others) Same :=
  ⟨pure, lift, call hr, par hr, bind⟩

end Same

end RG
