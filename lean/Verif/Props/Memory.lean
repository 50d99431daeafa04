import Verif.Memory
import Verif.ProgSame
import Verif.Props.Evolution
import Verif.Props.OneMax

/-!
# C118: the vectors of a run

The specification is about the numbers of `Vecs`: capacities, enlargements and individuals held at the same time.
-/

set_option linter.unusedSectionVars false

namespace RG.Props
open RG RG.Prog
variable {I : Type} [Individual I] {Mo U A P Q : Type}

theorem hold_ok {m : Alloc} {v : Vecs} {len n : Nat} (h : n ≤ v.next) :
    m.hold v len n = .ok { v with peak := max v.peak (len + n) } := by
  simp only [Alloc.hold, if_pos h]

/-- What `hold` does if it does not panic. -/
theorem hold_cases {m : Alloc} (hm : m.Lawful) {v v' : Vecs} {len n : Nat} (h : m.hold v len n = .ok v') :
    v'.current = v.current ∧ n ≤ v'.next ∧ v'.peak = max v.peak (len + n) ∧
      (n ≤ v.next ∧ v'.next = v.next ∧ v'.grown = v.grown ∨ v.next < n ∧ v'.grown = v.grown + 1) := by
  unfold Alloc.hold at h
  split at h
  · rename_i hn
    cases h
    exact ⟨rfl, hn, rfl, Or.inl ⟨hn, rfl, rfl⟩⟩
  · rename_i hn
    split at h
    · cases h
      exact ⟨rfl, hm.grow _ _, rfl, Or.inr ⟨by omega, rfl⟩⟩
    · cases h

/-- One generation: the vectors take the elites and then everything. -/
theorem yields_generationStepV (m : Alloc) (alg : EvoAlgo I Mo U A P) (env : Env I) (st st' : RunState I A Q) (v v' : Vecs) :
    (generationStepV m alg env st v).yields (.ok (st', v')) ↔ ∃ a el buf pop old v₁ v₂,
      (alg.prepare env.num st.algo st.population).yields (.ok a) ∧
      alg.selectElites a st.population [] = .ok el ∧ m.hold v st.population.len el.length = .ok v₁ ∧
      (alg.generate env.num a st.population el).yields (.ok buf) ∧ m.hold v₁ st.population.len buf.length = .ok v₂ ∧
      alg.replace env a st.population buf = .ok (pop, old) ∧
      st' = { st with algo := a, population := pop, buffer := old } ∧
      v' = { v₂ with current := v₂.next, next := v₂.current } := by
  unfold generationStepV
  simp only [yields_bind_ok, yields_lift]
  constructor
  · rintro ⟨a, h1, el, h2, v₁, h3, buf, h4, v₂, h5, ⟨pop, old⟩, h6, h7⟩
    simp only [yields_pure, Res.ok.injEq, Prod.mk.injEq] at h7
    exact ⟨a, el, buf, pop, old, v₁, v₂, h1, h2.symm, h3.symm, h4, h5.symm, h6.symm, h7.1, h7.2⟩
  · rintro ⟨a, el, buf, pop, old, v₁, v₂, h1, h2, h3, h4, h5, h6, h7, h8⟩
    exact ⟨a, h1, el, h2.symm, v₁, h3.symm, buf, h4, v₂, h5.symm, (pop, old), h6.symm, by
      simp only [yields_pure, Res.ok.injEq, Prod.mk.injEq]; exact ⟨h7, h8⟩⟩

section
variable {M : EvoModel I Mo U} {alg : EvoAlgo I Mo U A P} {elite size : A → Nat} {eliteOf : P → Nat} {m : Alloc}

/-- What one generation needs: `e` places for the elites, then `n` in total. -/
theorem step_needs (hstd : Standard M alg elite size eliteOf) {env : Env I} {a a' : A} {p : Population I} {el buf : List I}
    (hp : (alg.prepare env.num a p).yields (.ok a')) (hel : alg.selectElites a' p [] = .ok el)
    (hb : (alg.generate env.num a' p el).yields (.ok buf)) (hle : elite a ≤ size a) :
    el.length ≤ size a ∧ size a ≤ buf.length + 1 ∧ buf.length ≤ size a := by
  obtain ⟨e1, e2⟩ := hstd.prepare _ _ _ _ hp
  rw [hstd.elites, takeElites_eq] at hel
  cases hel
  rw [hstd.generate] at hb
  obtain ⟨r, n, hr⟩ : ∃ r n, alg.repro a' = (r, n) := ⟨_, _, rfl⟩
  have hn : n = size a := by rw [← e2, ← hstd.bred a', hr]
  rw [hr] at hb
  have hl : ([] ++ p.individuals.drop (p.individuals.length - elite a')).length ≤ elite a := by
    rw [List.nil_append, List.length_drop]; omega
  rcases (C52_generate M env.num _ r n _ _ _).1 hb with ⟨h, rfl⟩ | ⟨h, rfl, _⟩ | ⟨h, new, rfl, hlen, -⟩ <;> omega

/-- The vector given to `evolve_population`, with capacity `c₀` at first and `c` now, after `g` enlargements; `N` is the population
size. -/
def GivenVec (N c₀ c g : Nat) : Prop := c = c₀ ∧ g = 0 ∨ c₀ < N ∧ (N ≤ c + 1 ∧ g ≤ 2 ∨ N ≤ c ∧ g ≤ 3)

/-- The state of the vectors between two generations; `F` is the capacity of the vector that `evolve_population` makes, and `K` bounds the
population. -/
structure VecInv (elite size : A → Nat) (N K F c₀ : Nat) (st : RunState I A Q) (v : Vecs) : Prop where
  size : size st.algo = N
  elite : elite st.algo ≤ N
  len : st.population.len ≤ K
  fits : st.population.len ≤ v.current
  peak : v.peak ≤ K + N
  vecs : ∃ c, GivenVec N c₀ c v.grown ∧ (v.current = c ∧ v.next = F ∨ v.current = F ∧ v.next = c)
  start : st.population.generation = 0 → v.current = c₀ ∧ v.next = F ∧ v.grown = 0
  second : st.population.generation = 1 → v.current = F ∧ v.next = c₀ ∧ v.grown = 0
  later : 2 ≤ st.population.generation → c₀ + 1 < N → 1 ≤ v.grown

theorem step_vecs (hstd : Standard M alg elite size eliteOf) (hm : m.Lawful) {env : Env I} (henv : env.Lawful) {N K F c₀ : Nat}
    (hF : N ≤ F) (hK : N ≤ K) {st st' : RunState I A Q} {v v' : Vecs} (h : VecInv elite size N K F c₀ st v)
    (hs : (generationStepV m alg env st v).yields (.ok (st', v'))) : VecInv elite size N K F c₀ st' v' := by
  obtain ⟨a, el, buf, pop, old, v₁, v₂, h1, h2, h3, h4, h5, h6, rfl, rfl⟩ := (yields_generationStepV m alg env st st' v v').1 hs
  obtain ⟨e1, e2⟩ := hstd.prepare _ _ _ _ h1
  obtain ⟨n1, n2, n3⟩ := step_needs hstd h1 h2 h4 (by rw [h.size]; exact h.elite)
  rw [h.size] at n1 n2 n3
  rw [hstd.replace] at h6
  obtain ⟨-, -, w3, w4, -⟩ := Population.wf_replace henv.sort h6
  have hlen : pop.len ≤ buf.length := by
    show pop.individuals.length ≤ _
    rw [w3]; exact length_dedup_sort henv.sort _
  obtain ⟨a1, a2, a3, a4⟩ := hold_cases hm h3
  obtain ⟨b1, b2, b3, b4⟩ := hold_cases hm h5
  obtain ⟨c, hc, hv⟩ := h.vecs
  have hp := h.peak
  have hl := h.len
  refine ⟨by rw [← h.size]; exact e2, by show elite a ≤ N; rw [e1]; exact h.elite, hlen.trans (n3.trans hK),
    hlen.trans b2, ?_, ?_, fun h0 => ?_, fun h0 => ?_, fun h0 hc => ?_⟩
  · show v₂.peak ≤ _
    rw [b3, a3]
    omega
  · show ∃ c, GivenVec N c₀ c v₂.grown ∧ (v₂.next = c ∧ v₂.current = F ∨ v₂.next = F ∧ v₂.current = c)
    unfold GivenVec at hc ⊢
    rcases hv with ⟨v1, v2⟩ | ⟨v1, v2⟩
    · exact ⟨c, by omega, Or.inr ⟨by omega, by omega⟩⟩
    · exact ⟨v₂.next, by omega, Or.inl ⟨rfl, by omega⟩⟩
  · have h0 : pop.generation = 0 := h0
    omega
  · have h0 : pop.generation = 1 := h0
    obtain ⟨s1, s2, s3⟩ := h.start (by omega)
    show v₂.next = F ∧ v₂.current = c₀ ∧ v₂.grown = 0
    omega
  · have h0 : 2 ≤ pop.generation := h0
    show 1 ≤ v₂.grown
    by_cases h1 : st.population.generation = 1
    · obtain ⟨s1, s2, s3⟩ := h.second h1
      omega
    · have := h.later (by omega) hc
      omega

theorem loop_vecs (hstd : Standard M alg elite size eliteOf) (hm : m.Lawful) (envs : Nat → Env I) (henv : ∀ t, (envs t).Lawful)
    (progress : Q → Population I → Prog (Bool × Q)) {N K F c₀ : Nat} (hF : N ≤ F) (hK : N ≤ K) (fuel t : Nat) (st : RunState I A Q)
    (v : Vecs) (h : VecInv elite size N K F c₀ st v) :
    Partially (fun r => VecInv elite size N K F c₀ r.1.2 r.2) (evolveLoopV m alg envs progress fuel t st v) := by
  induction fuel generalizing t st v with
  | zero => intro r hr; cases hr; exact h
  | succ fuel ih =>
    intro r hr
    rw [evolveLoopV, yields_bind_ok] at hr
    obtain ⟨⟨cont, q'⟩, -, hr⟩ := hr
    have h' : VecInv elite size N K F c₀ { st with q := q', shown := st.shown ++ [st.population] } v :=
      ⟨h.size, h.elite, h.len, h.fits, h.peak, h.vecs, h.start, h.second, h.later⟩
    cases cont
    · cases hr; exact h'
    · simp only [if_true, yields_bind_ok] at hr
      obtain ⟨⟨st1, v1⟩, hs, hr⟩ := hr
      exact ih (t + 1) st1 v1 (step_vecs hstd hm (henv t) hF hK h' hs) r hr

theorem run_vecs (hstd : Standard M alg elite size eliteOf) (hm : m.Lawful) (envs : Nat → Env I) (henv : ∀ t, (envs t).Lawful)
    (progress : Q → Population I → Prog (Bool × Q)) (fuel : Nat) (a : A) (init : List I) (c₀ : Nat) (hc : init.length ≤ c₀) (p : P)
    (hp : alg.initialSize p ≤ 2 ^ 53) (hmax : alg.maxSize p = alg.initialSize p) (q : Q) :
    Partially (fun r => VecInv elite size (alg.initialSize p) (max init.length (alg.initialSize p)) (m.fresh (alg.initialSize p)) c₀
      r.1.2 r.2) (evolvePopulationV m alg envs progress fuel a init c₀ p q) := by
  intro r hr
  rw [evolvePopulationV, yields_bind_ok] at hr
  obtain ⟨a', ha, hr⟩ := hr
  have ha : alg.configure a p = .ok a' := ((yields_lift _ _).1 ha).symm
  obtain ⟨-, s1, s2, s3⟩ := hstd.configure _ _ _ ha hp
  rw [yields_bind_ok] at hr
  obtain ⟨pop, hpop, hr⟩ := hr
  rw [hstd.init] at hpop
  obtain ⟨-, g1, -, g3, -⟩ := init_wf (henv 0) hpop
  rw [yields_bind_ok] at hr
  obtain ⟨next, hn, hr⟩ := hr
  rw [yields_lift] at hn
  have hnext : next = m.fresh (alg.initialSize p) := by
    rw [hmax] at hn
    unfold Alloc.withCapacity at hn
    split at hn
    · exact Res.ok.inj hn
    · cases hn
  refine loop_vecs hstd hm envs henv progress (hm.fresh _) (le_max_right _ _) fuel 1 _ _ ?_ r hr
  exact ⟨s1, by show elite a' ≤ _; rw [s2]; exact s3.le, g3.trans (le_max_left _ _), g3.trans hc,
    (le_max_left _ _).trans (Nat.le_add_right _ _), ⟨c₀, Or.inl ⟨rfl, rfl⟩, Or.inl ⟨rfl, hnext⟩⟩,
    fun _ => ⟨rfl, hnext, rfl⟩, fun h1 => absurd (g1.symm.trans h1) (by omega), fun h1 _ => absurd (g1 ▸ h1 : 2 ≤ 0) (by omega)⟩

/-- Nothing the run asks for is too large: both vectors have room for `N` individuals, or whatever they would be enlarged to is small
enough. -/
def Roomy (m : Alloc) (N : Nat) (v : Vecs) : Prop :=
  N ≤ v.next ∧ N ≤ v.current ∨ ∀ c n, c < n → n ≤ N → m.grow c n * m.bytes ≤ isizeMax

theorem hold_roomy {N : Nat} {v : Vecs} (h : Roomy m N v) (len : Nat) {n : Nat} (hn : n ≤ N) :
    ∃ v', m.hold v len n = .ok v' ∧ Roomy m N v' := by
  by_cases hle : n ≤ v.next
  · exact ⟨_, hold_ok hle, h⟩
  · rcases h with ⟨h, -⟩ | h
    · omega
    · refine ⟨{ v with next := m.grow v.next n, grown := v.grown + 1, peak := max v.peak (len + n) }, ?_, Or.inr h⟩
      simp only [Alloc.hold, if_neg hle, if_pos (h v.next n (by omega) hn)]

theorem stepV_same (hstd : Standard M alg elite size eliteOf) {env : Env I} {N : Nat} {st : RunState I A Q} {v : Vecs}
    (hs : size st.algo = N) (he : elite st.algo ≤ N) (hr : Roomy m N v) {β : Type} (F : RunState I A Q → Vecs → Prog β)
    (G : RunState I A Q → Prog β)
    (h : ∀ st' v', size st'.algo = N → elite st'.algo ≤ N → Roomy m N v' → (F st' v').Same (G st')) :
    (generationStepV m alg env st v >>= fun r => F r.1 r.2).Same (generationStep alg env st >>= G) := by
  unfold generationStepV generationStep
  simp only [bind_assoc', bind_pure_left]
  refine Same.bind_right _ fun a h1 => Same.bind_right _ fun el h2 => ?_
  have h2 := ((yields_lift _ _).1 h2).symm
  obtain ⟨e1, e2⟩ := hstd.prepare _ _ _ _ h1
  have hel : el.length ≤ N := by
    rw [hstd.elites, takeElites_eq] at h2
    cases h2
    rw [List.nil_append, List.length_drop]
    have : elite a ≤ N := by rw [e1]; exact he
    omega
  obtain ⟨v₁, hv1, hr1⟩ := hold_roomy hr st.population.len hel
  rw [hv1, lift_ok, bind_pure_left]
  refine Same.bind_right _ fun buf h3 => ?_
  obtain ⟨-, -, n3⟩ := step_needs hstd h1 h2 h3 (by rw [hs]; exact he)
  rw [hs] at n3
  obtain ⟨v₂, hv2, hr2⟩ := hold_roomy hr1 st.population.len n3
  rw [hv2, lift_ok, bind_pure_left]
  refine Same.bind_right _ fun x _ => h _ _ (e2.trans hs) (by show elite a ≤ N; rw [e1]; exact he) ?_
  rcases hr2 with ⟨x1, x2⟩ | hr2
  · exact Or.inl ⟨x2, x1⟩
  · exact Or.inr hr2

theorem loopV_same (hstd : Standard M alg elite size eliteOf) (envs : Nat → Env I)
    (progress : Q → Population I → Prog (Bool × Q)) {N : Nat} {β : Type} (F : Bool × RunState I A Q → Prog β) (fuel t : Nat)
    (st : RunState I A Q) (v : Vecs) (hs : size st.algo = N) (he : elite st.algo ≤ N) (hr : Roomy m N v) :
    (evolveLoopV m alg envs progress fuel t st v >>= fun r => F r.1).Same (evolveLoop alg envs progress fuel t st >>= F) := by
  induction fuel generalizing t st v with
  | zero => exact Same.refl _
  | succ fuel ih =>
    rw [evolveLoopV, evolveLoop, bind_assoc', bind_assoc']
    refine Same.bind_right _ fun ⟨cont, q'⟩ _ => ?_
    cases cont
    · exact Same.refl _
    · simp only [if_true, bind_assoc']
      exact stepV_same hstd (st := { st with q := q', shown := st.shown ++ [st.population] }) hs he hr (fun st v => evolveLoopV m alg envs progress fuel (t + 1) st v >>= fun r => F r.1)
        (fun st => evolveLoop alg envs progress fuel (t + 1) st >>= F) fun st' v' s1 s2 s3 => ih (t + 1) st' v' s1 s2 s3

theorem runV_same (hstd : Standard M alg elite size eliteOf) (hm : m.Lawful) (envs : Nat → Env I)
    (progress : Q → Population I → Prog (Bool × Q)) (fuel : Nat) (a : A) (init : List I) (c₀ : Nat) (p : P)
    (hp : alg.initialSize p ≤ 2 ^ 53) (hmax : alg.maxSize p = alg.initialSize p) (hfit : alg.initialSize p * m.bytes ≤ isizeMax)
    (hr : alg.initialSize p ≤ c₀ ∨ ∀ c n, c < n → n ≤ alg.initialSize p → m.grow c n * m.bytes ≤ isizeMax) (q : Q) {β : Type}
    (F : Bool × RunState I A Q → Prog β) :
    (evolvePopulationV m alg envs progress fuel a init c₀ p q >>= fun r => F r.1).Same
      (evolvePopulation alg envs progress fuel a init p q >>= F) := by
  unfold evolvePopulationV evolvePopulation
  simp only [bind_assoc']
  refine Same.bind_right _ fun a' ha => Same.bind_right _ fun pop _ => ?_
  obtain ⟨-, s1, s2, s3⟩ := hstd.configure _ _ _ ((yields_lift _ _).1 ha).symm hp
  rw [hmax, Alloc.withCapacity, if_pos hfit, lift_ok, bind_pure_left]
  refine loopV_same hstd envs progress F fuel 1 _ _ s1 (by show elite a' ≤ _; rw [s2]; exact s3.le) ?_
  rcases hr with hr | hr
  · exact Or.inl ⟨hm.fresh _, hr⟩
  · exact Or.inr hr

/-- **C118** (`evolve_population`) Whatever vector the initial population is in: it is enlarged at most three times in the whole run, and
never if it has room for `population_size` individuals; the vector that `evolve_population` makes is never enlarged. Together they never
hold more individuals than the initial population or a full one, plus a full one. -/
theorem C118_population (hstd : Standard M alg elite size eliteOf) (hm : m.Lawful) (envs : Nat → Env I) (henv : ∀ t, (envs t).Lawful)
    (progress : Q → Population I → Prog (Bool × Q)) (fuel : Nat) (a : A) (init : List I) (c₀ : Nat) (hc : init.length ≤ c₀) (p : P)
    (hp : alg.initialSize p ≤ 2 ^ 53) (hmax : alg.maxSize p = alg.initialSize p) (q : Q) :
    Partially (fun r => r.2.grown ≤ 3 ∧ (alg.initialSize p ≤ c₀ → r.2.grown = 0) ∧
        (∃ c, (c₀ = c ∨ c₀ < alg.initialSize p ∧ alg.initialSize p ≤ c + 1) ∧
          (r.2.current = c ∧ r.2.next = m.fresh (alg.initialSize p) ∨ r.2.current = m.fresh (alg.initialSize p) ∧ r.2.next = c)) ∧
        r.2.peak ≤ max init.length (alg.initialSize p) + alg.initialSize p ∧ r.1.2.population.len ≤ r.2.current)
      (evolvePopulationV m alg envs progress fuel a init c₀ p q) := by
  intro r hr
  obtain ⟨-, -, -, i4, i5, ⟨c, hg, hv⟩, -⟩ := run_vecs hstd hm envs henv progress fuel a init c₀ hc p hp hmax q r hr
  unfold GivenVec at hg
  exact ⟨by omega, by omega, ⟨c, by omega, hv⟩, i5, i4⟩

/-- **C118** (enlarged) The first generation enlarges nothing; if the vector of the initial population has no room for all but one of a full
population, it has been enlarged after the second. -/
theorem C118_enlarged (hstd : Standard M alg elite size eliteOf) (hm : m.Lawful) (envs : Nat → Env I) (henv : ∀ t, (envs t).Lawful)
    (progress : Q → Population I → Prog (Bool × Q)) (fuel : Nat) (a : A) (init : List I) (c₀ : Nat) (hc : init.length ≤ c₀) (p : P)
    (hp : alg.initialSize p ≤ 2 ^ 53) (hmax : alg.maxSize p = alg.initialSize p) (q : Q) :
    Partially (fun r => (r.1.2.population.generation ≤ 1 → r.2.grown = 0) ∧
        (2 ≤ r.1.2.population.generation → c₀ + 1 < alg.initialSize p → 1 ≤ r.2.grown))
      (evolvePopulationV m alg envs progress fuel a init c₀ p q) := by
  intro r hr
  obtain ⟨-, -, -, -, -, -, i1, i2, i3⟩ := run_vecs hstd hm envs henv progress fuel a init c₀ hc p hp hmax q r hr
  refine ⟨fun h => ?_, i3⟩
  by_cases h0 : r.1.2.population.generation = 0
  · exact (i1 h0).2.2
  · exact (i2 (by omega)).2.2

/-- **C118** (the same) If nothing is too large for a vector, a run with these vectors makes the same draws and has the same outcome as
in the rest of the model. -/
theorem C118_same_population (hstd : Standard M alg elite size eliteOf) (hm : m.Lawful) (envs : Nat → Env I)
    (progress : Q → Population I → Prog (Bool × Q)) (fuel : Nat) (a : A) (init : List I) (c₀ : Nat) (p : P)
    (hp : alg.initialSize p ≤ 2 ^ 53) (hmax : alg.maxSize p = alg.initialSize p) (hfit : alg.initialSize p * m.bytes ≤ isizeMax)
    (hr : alg.initialSize p ≤ c₀ ∨ ∀ c n, c < n → n ≤ alg.initialSize p → m.grow c n * m.bytes ≤ isizeMax) (q : Q) :
    (evolvePopulationV m alg envs progress fuel a init c₀ p q >>= fun r => pure r.1).Same
      (evolvePopulation alg envs progress fuel a init p q) := by
  have := runV_same hstd hm envs progress fuel a init c₀ p hp hmax hfit hr q pure
  rwa [Prog.bind_pure_right] at this

theorem filled_length (hx : M.extend = fun _ => defaultExtend) {model : Mo} {newRandom : Prog I} {n : Nat} {l : List I}
    (h : (M.extend model newRandom [] n).yields (.ok l)) : l.length = n := by
  rw [hx] at h
  obtain ⟨new, rfl, h, -⟩ := (C49_extend newRandom [] l n).1 h
  simpa using h

theorem filledWith_length (hx : M.extendWith = defaultExtendWith M.toEvoOps) {model : Mo} {x : I} {n : Nat} {l : List I}
    (h : (M.extendWith model [] n x).yields (.ok l)) : l.length = n := by
  rw [hx] at h
  rcases (C49_extend_with M.toEvoOps model [] l n x).1 h with ⟨rfl, rfl⟩ | ⟨new, -, rfl, h, -⟩
  · rfl
  · simpa using h

theorem filled_ok (hm : m.Lawful) (n : Nat) : m.filled (m.fresh n) n = .ok (m.fresh n, 0) := by
  unfold Alloc.filled
  rw [hold_ok (hm.fresh n)]
  rfl

/-- What `run` and `evolve_individual` have in common. -/
theorem started_same (hstd : Standard M alg elite size eliteOf) (hm : m.Lawful) (envs : Nat → Env I)
    (progress : Q → Population I → Prog (Bool × Q)) (fuel : Nat) (a : A) (start : Prog (List I)) (p : P)
    (hlen : ∀ l, start.yields (.ok l) → l.length = alg.initialSize p)
    (hp : alg.initialSize p ≤ 2 ^ 53) (hmax : alg.maxSize p = alg.initialSize p) (hfit : alg.initialSize p * m.bytes ≤ isizeMax)
    (q : Q) :
    ((do
      let capacity ← Prog.lift (m.withCapacity (alg.maxSize p))
      let individuals ← start
      let (capacity, grown) ← Prog.lift (m.filled capacity individuals.length)
      let (r, v) ← evolvePopulationV m alg envs progress fuel a individuals capacity p q
      let r ← takeResult r
      pure (r, { v with grown := v.grown + grown }) : Prog ((Option I × RunState I A Q) × Vecs)) >>= fun r => pure r.1).Same
    (do
      let individuals ← start
      let r ← evolvePopulation alg envs progress fuel a individuals p q
      takeResult r) := by
  rw [hmax, Alloc.withCapacity, if_pos hfit, lift_ok, bind_pure_left, bind_assoc']
  refine Same.bind_right _ fun l hl => ?_
  rw [hlen l hl, filled_ok hm, lift_ok, bind_pure_left, bind_assoc']
  have h := runV_same hstd hm envs progress fuel a l (m.fresh (alg.initialSize p)) p hp hmax hfit (Or.inl (hm.fresh _)) q
    (fun r => takeResult r)
  refine Same.trans (Same.of_eq ?_) h
  congr 1
  funext r
  simp only [bind_assoc', bind_pure_left]
  exact Prog.bind_pure_right _

theorem started_vecs (hstd : Standard M alg elite size eliteOf) (hm : m.Lawful) (envs : Nat → Env I) (henv : ∀ t, (envs t).Lawful)
    (progress : Q → Population I → Prog (Bool × Q)) (fuel : Nat) (a : A) (start : Prog (List I)) (p : P)
    (hlen : ∀ l, start.yields (.ok l) → l.length = alg.initialSize p)
    (hp : alg.initialSize p ≤ 2 ^ 53) (hmax : alg.maxSize p = alg.initialSize p) (q : Q) :
    Partially (fun r => r.2.current = m.fresh (alg.initialSize p) ∧ r.2.next = m.fresh (alg.initialSize p) ∧ r.2.grown = 0 ∧
        r.2.peak ≤ 2 * alg.initialSize p)
      (do
      let capacity ← Prog.lift (m.withCapacity (alg.maxSize p))
      let individuals ← start
      let (capacity, grown) ← Prog.lift (m.filled capacity individuals.length)
      let (r, v) ← evolvePopulationV m alg envs progress fuel a individuals capacity p q
      let r ← takeResult r
      pure (r, { v with grown := v.grown + grown }) : Prog ((Option I × RunState I A Q) × Vecs)) := by
  intro r hr
  rw [yields_bind_ok] at hr
  obtain ⟨cap, hcap, hr⟩ := hr
  rw [yields_lift, hmax, Alloc.withCapacity] at hcap
  by_cases hfit : alg.initialSize p * m.bytes ≤ isizeMax
  · rw [if_pos hfit] at hcap
    cases hcap
    rw [yields_bind_ok] at hr
    obtain ⟨l, hl, hr⟩ := hr
    rw [hlen l hl, filled_ok hm, lift_ok, bind_pure_left, yields_bind_ok] at hr
    obtain ⟨⟨r', v⟩, h1, hr⟩ := hr
    rw [yields_bind_ok] at hr
    obtain ⟨r'', -, hr⟩ := hr
    cases hr
    obtain ⟨h2, h3, ⟨c, h4, h5⟩, h6, -⟩ := C118_population hstd hm envs henv progress fuel a l _ (by rw [hlen l hl]; exact hm.fresh _) p
      hp hmax q _ h1
    dsimp only at h2 h3 h4 h5 h6
    have := hm.fresh (alg.initialSize p)
    have h3 := h3 this
    rw [hlen l hl] at h6
    have hc : m.fresh (alg.initialSize p) = c := by omega
    subst hc
    refine ⟨by show v.current = _; omega, by show v.next = _; omega, by show v.grown + 0 = 0; exact h3, ?_⟩
    show v.peak ≤ _
    rw [max_self] at h6
    omega
  · rw [if_neg hfit] at hcap
    cases hcap

/-- **C118** (`run`) With the default way of making the initial population, `run` makes two vectors with room for `population_size`
individuals, neither of which is ever enlarged, and they never hold more than twice that many individuals together. -/
theorem C118_run (hstd : Standard M alg elite size eliteOf) (hm : m.Lawful) (hx : M.extend = fun _ => defaultExtend)
    (envs : Nat → Env I) (henv : ∀ t, (envs t).Lawful) (progress : Q → Population I → Prog (Bool × Q)) (fuel : Nat) (a : A)
    (newRandom : Prog I) (p : P) (hp : alg.initialSize p ≤ 2 ^ 53) (hmax : alg.maxSize p = alg.initialSize p) (q : Q) :
    Partially (fun r => r.2.current = m.fresh (alg.initialSize p) ∧ r.2.next = m.fresh (alg.initialSize p) ∧ r.2.grown = 0 ∧
      r.2.peak ≤ 2 * alg.initialSize p) (runRandomV m M alg envs progress fuel a newRandom p q) :=
  started_vecs hstd hm envs henv progress fuel a _ p (fun _ h => filled_length hx h) hp hmax q

/-- **C118** (`evolve_individual`) So does `evolve_individual`. -/
theorem C118_individual (hstd : Standard M alg elite size eliteOf) (hm : m.Lawful)
    (hx : M.extendWith = defaultExtendWith M.toEvoOps) (envs : Nat → Env I) (henv : ∀ t, (envs t).Lawful)
    (progress : Q → Population I → Prog (Bool × Q)) (fuel : Nat) (a : A) (x : I) (p : P) (hp : alg.initialSize p ≤ 2 ^ 53)
    (hmax : alg.maxSize p = alg.initialSize p) (q : Q) :
    Partially (fun r => r.2.current = m.fresh (alg.initialSize p) ∧ r.2.next = m.fresh (alg.initialSize p) ∧ r.2.grown = 0 ∧
      r.2.peak ≤ 2 * alg.initialSize p) (evolveIndividualV m M alg envs progress fuel a x p q) :=
  started_vecs hstd hm envs henv progress fuel a _ p (fun _ h => filledWith_length hx h) hp hmax q

/-- **C118** (the same) If `population_size` individuals take at most `isize::MAX` bytes, `run` and `evolve_individual` are as in the rest
of the model, whatever the library's choice of capacities. -/
theorem C118_same_run (hstd : Standard M alg elite size eliteOf) (hm : m.Lawful) (hx : M.extend = fun _ => defaultExtend)
    (hx' : M.extendWith = defaultExtendWith M.toEvoOps) (envs : Nat → Env I) (progress : Q → Population I → Prog (Bool × Q))
    (fuel : Nat) (a : A) (newRandom : Prog I) (x : I) (p : P) (hp : alg.initialSize p ≤ 2 ^ 53)
    (hmax : alg.maxSize p = alg.initialSize p) (hfit : alg.initialSize p * m.bytes ≤ isizeMax) (q : Q) :
    (runRandomV m M alg envs progress fuel a newRandom p q >>= fun r => pure r.1).Same
      (runRandom M alg envs progress fuel a newRandom p q) ∧
    (evolveIndividualV m M alg envs progress fuel a x p q >>= fun r => pure r.1).Same
      (evolveIndividual M alg envs progress fuel a x p q) :=
  ⟨started_same hstd hm envs progress fuel a _ p (fun _ h => filled_length hx h) hp hmax hfit q,
    started_same hstd hm envs progress fuel a _ p (fun _ h => filledWith_length hx' h) hp hmax hfit q⟩

end

/-- **C118** (too many) If `max_population_size()` individuals take more than `isize::MAX` bytes, `run` and `evolve_individual` panic before
making any individual, and `evolve_population` never calls `progress` or returns — whatever the algorithm, also with parameters that
`validate` accepts. -/
theorem C118_overflow (M : EvoModel I Mo U) (alg : EvoAlgo I Mo U A P) (m : Alloc) (p : P) (h : isizeMax < alg.maxSize p * m.bytes)
    (envs : Nat → Env I) (progress : Q → Population I → Prog (Bool × Q)) (fuel : Nat) (a : A) (q : Q) :
    (∀ newRandom, runRandomV m M alg envs progress fuel a newRandom p q = Prog.lift .panic) ∧
    (∀ x, evolveIndividualV m M alg envs progress fuel a x p q = Prog.lift .panic) ∧
    ∀ init c₀ r, ¬ (evolvePopulationV m alg envs progress fuel a init c₀ p q).yields (.ok r) := by
  have hw : m.withCapacity (alg.maxSize p) = .panic := if_neg (by omega)
  refine ⟨fun newRandom => ?_, fun x => ?_, fun init c₀ r hr => ?_⟩
  · unfold runRandomV; rw [hw]; rfl
  · unfold evolveIndividualV; rw [hw]; rfl
  · unfold evolvePopulationV at hr
    rw [yields_bind_ok] at hr
    obtain ⟨a', -, hr⟩ := hr
    rw [yields_bind_ok] at hr
    obtain ⟨pop, -, hr⟩ := hr
    rw [yields_bind_ok, hw] at hr
    obtain ⟨n, hn, -⟩ := hr
    cases hn

/-! ### Examples -/

/-- Vectors of individuals of 32 bytes that at least double when they are enlarged. -/
def doubling : Alloc := ⟨32, id, fun c n => max (2 * c) (max n 4)⟩

theorem doubling_lawful : doubling.Lawful := ⟨fun _ => le_rfl, fun c n => by show n ≤ max (2 * c) (max n 4); omega⟩

-- the genetic algorithm with its default parameters
example (newRandom : Prog OneMax) (progress : Q → Population OneMax → Prog (Bool × Q)) (fuel : Nat) (q : Q) :
    Partially (fun r => r.2.current = 100 ∧ r.2.next = 100 ∧ r.2.grown = 0 ∧ r.2.peak ≤ 200)
      (runRandomV doubling OneMax.model (ga OneMax.model) (fun _ => oneEnv) progress fuel (Ga.ofModel ()) newRandom GaParams.default q) :=
  C118_run (ga_standard OneMax.model) doubling_lawful rfl (fun _ => oneEnv) (fun _ => oneEnv_lawful) progress fuel (Ga.ofModel ())
    newRandom GaParams.default (by show 100 ≤ 2 ^ 53; norm_num) rfl q

-- from any vector, the adaptive algorithm behaves as in the rest of the model
example (init : List OneMax) (c₀ : Nat) (progress : Q → Population OneMax → Prog (Bool × Q)) (fuel : Nat) (q : Q) :
    (evolvePopulationV doubling (aga OneMax.model) (fun _ => oneEnv) progress fuel (Aga.ofModel ()) init c₀ AgaParams.default q >>=
      fun r => pure r.1).Same
    (evolvePopulation (aga OneMax.model) (fun _ => oneEnv) progress fuel (Aga.ofModel ()) init AgaParams.default q) :=
  C118_same_population (aga_standard OneMax.model) doubling_lawful (fun _ => oneEnv) progress fuel (Aga.ofModel ()) init c₀
    AgaParams.default (by show 100 ≤ 2 ^ 53; norm_num) rfl (by show 100 * 32 ≤ 2 ^ 63 - 1; norm_num) (Or.inr (by
      intro c n h1 h2
      have h2 : n ≤ 100 := h2
      show max (2 * c) (max n 4) * 32 ≤ 2 ^ 63 - 1
      have : max (2 * c) (max n 4) ≤ 200 := by omega
      omega)) q

-- parameters that are valid but ask for too much
example : ({ GaParams.default with populationSize := 2 ^ 63 } : GaParams).Valid ∧
    ∀ (progress : Q → Population OneMax → Prog (Bool × Q)) (fuel : Nat) (q : Q) (newRandom : Prog OneMax),
      runRandomV doubling OneMax.model (ga OneMax.model) (fun _ => oneEnv) progress fuel (Ga.ofModel ()) newRandom
        { GaParams.default with populationSize := 2 ^ 63 } q = Prog.lift .panic :=
  ⟨⟨by norm_num, C50_defaults.1.2⟩, fun progress fuel q newRandom =>
    (C118_overflow OneMax.model (ga OneMax.model) doubling { GaParams.default with populationSize := 2 ^ 63 }
      (by show 2 ^ 63 - 1 < 2 ^ 63 * 32; norm_num) (fun _ => oneEnv) progress fuel (Ga.ofModel ()) q).1 newRandom⟩

end RG.Props
