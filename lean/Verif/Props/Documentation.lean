import Verif.Props.OneMaxAga
import Verif.Props.OneMaxRandom

/-!
# Property C95: the programs of the documentation

`README.md:143-159`, `ga.rs:111-131` and `aga.rs:129-147`: OneMax with 100 bits, stopped at the fitness 0.999999 or after 100 generations,
and an assertion that all bits are `true`.
-/

set_option linter.unusedSectionVars false

namespace RG.Props
open RG RG.Prog
variable {I Mo U A P : Type} [Individual I]

/-- The closure `|population| population.fittest().fitness() < target && population.generation() <= limit` — `ga.rs:127-129`. -/
def whileBelow (target : F64) (limit : Nat) (q : Unit) (p : Population I) : Prog (Bool × Unit) := do
  let x ← Prog.lift p.fittest
  pure ((fitness x).lt target && decide (p.generation ≤ limit), q)

theorem whileBelow_always {target : F64} {limit : Nat} {q : Unit} {pop : Population I} (w : pop.WF) :
    Always (fun _ => True) (whileBelow target limit q pop) := by
  rw [whileBelow, w.fittest_ok.1]; simp

theorem whileBelow_eq {target : F64} (ht : target.isNaN = false) {limit : Nat} {q : Unit} (hv : ValidNotNaN I) {pop : Population I}
    (hg : GoodPop pop) : ∃ x ∈ pop.individuals, pop.fittest = .ok x ∧ (target.le (fitness x) = true ↔ Reached target pop) ∧
      whileBelow target limit q pop = pure ((fitness x).lt target && decide (pop.generation ≤ limit), q) ∧
      ((fitness x).lt target = false ↔ Reached target pop) := by
  obtain ⟨x, hx, e, -, hle⟩ := hg.best hv
  have h : target.le (fitness x) = true ↔ Reached target pop :=
    ⟨fun h => ⟨x, hx, h⟩, fun ⟨y, hy, h⟩ => F64.le_trans h (hle y hy)⟩
  refine ⟨x, hx, e, h, by rw [whileBelow, e, lift_ok, bind_pure_left], ?_⟩
  rw [F64.not_lt_iff_le (hv x (hg.valid x hx)) ht, h]

section
variable {M : EvoModel I Mo U} {alg : EvoAlgo I Mo U A P} {elite size : A → Nat} {eliteOf : P → Nat} {okP : P → Prop} {Pr : I → Prop}

theorem whileBelow_loop (hstd : Standard M alg elite size eliteOf) (hb : M.BreedsValid) (hv : ValidNotNaN I) (envs : Nat → Env I)
    (henv : ∀ t, (envs t).Lawful) {target : F64} (ht : target.isNaN = false) (limit : Nat) (fuel t : Nat) (st : RunState I A Unit)
    (hg : GoodPop st.population) (hlen : st.shown.length = st.population.generation) (hfuel : limit + 2 ≤ fuel + st.population.generation)
    (hgen : st.population.generation ≤ limit + 1) (hsh : ∀ pop ∈ st.shown, ¬ Reached target pop) (fin : Bool) (st' : RunState I A Unit)
    (h : (evolveLoop alg envs (whileBelow target limit) fuel t st).yields (.ok (fin, st'))) :
    fin = true ∧ GoodPop st'.population ∧ st'.shown.length = st'.population.generation + 1 ∧ st'.population.generation ≤ limit + 1 ∧
      (Reached target st'.population ∨ st'.population.generation = limit + 1) ∧
      ∃ pre, st'.shown = pre ++ [st'.population] ∧ ∀ pop ∈ pre, ¬ Reached target pop := by
  induction fuel generalizing t st with
  | zero => omega
  | succ fuel ih =>
    obtain ⟨x, -, -, -, e, hx⟩ := whileBelow_eq (limit := limit) (q := st.q) ht hv hg
    rcases (yields_evolveLoop_succ _ _ _ _ _ _ _).1 h with ⟨q1, g1, e1⟩ | ⟨q1, st2, g1, g2, g3⟩
    · rw [e] at g1
      simp only [yields_pure, Res.ok.injEq, Prod.mk.injEq] at g1
      cases e1
      refine ⟨rfl, hg, by simp [hlen], hgen, ?_, st.shown, rfl, hsh⟩
      rcases Bool.and_eq_false_iff.1 g1.1.symm with h1 | h1
      · exact Or.inl (hx.1 h1)
      · exact Or.inr (by have := of_decide_eq_false h1; simp only; omega)
    · rw [e] at g1
      simp only [yields_pure, Res.ok.injEq, Prod.mk.injEq] at g1
      obtain ⟨h1, h2⟩ := Bool.and_eq_true_iff.1 g1.1.symm
      have hs := hstd.step (henv t) g2
      have hgn := hs.generation
      simp only at hgn
      have h2 := of_decide_eq_true h2
      refine ih (t + 1) st2 (hs.good (henv t) hb hv hg) ?_ (by omega) (by omega) ?_ g3
      · rw [hs.shown, hgn]; simp [hlen]
      · rw [hs.shown]
        intro pop hp
        rcases List.mem_append.1 hp with hp | hp
        · exact hsh pop hp
        · rw [List.mem_singleton.1 hp]
          intro hr
          rw [hx.2 hr] at h1
          cases h1

/-- **C95** With this closure a run neither panics nor goes on forever: it calls the closure at most `limit + 2` times and breeds at most
`limit + 1` generations. It stops at the first population that reaches the target, or with generation `limit + 1`. -/
theorem C95_ends (hstd : Standard M alg elite size eliteOf) (halg : SafeAlgo alg okP) (hM : SafeOps M Pr) (hb : M.BreedsValid)
    (hv : ValidNotNaN I) (envs : Nat → Env I) (henv : ∀ t, (envs t).Lawful) (target : F64) (ht : target.isNaN = false) (limit k : Nat)
    (hk : limit + 2 ≤ k) (a : A) (init : List I) (p : P) (q : Unit) (hp : okP p) (h2 : 2 ≤ alg.initialSize p)
    (hn : alg.initialSize p < 2 ^ 32) (hl : init.length < 2 ^ 32) (hinit : ∀ x ∈ init, Pr x)
    (hvalid : ∃ x ∈ init, Always (fun e => isValid e = true) (M.evaluate (alg.model a) x)) :
    Always (fun r => r.1 = true ∧ GoodPop r.2.population ∧ r.2.shown.length = r.2.population.generation + 1 ∧
      r.2.population.generation ≤ limit + 1 ∧ (Reached target r.2.population ∨ r.2.population.generation = limit + 1) ∧
      ∃ pre, r.2.shown = pre ++ [r.2.population] ∧ ∀ pop ∈ pre, ¬ Reached target pop)
      (evolvePopulation alg envs (whileBelow target limit) k a init p q) := by
  refine ((C64_run hstd halg hM envs henv _ (fun q p w => whileBelow_always w) k a init p q hp h2 hn hl hinit hvalid).and
    fun r hr => hr).mono ?_
  rintro ⟨fin, st⟩ ⟨-, hr⟩
  obtain ⟨a'', pop, c1, c2, c3⟩ := (yields_evolvePopulation _ _ _ _ _ _ _ _ _).1 hr
  rw [hstd.init] at c2
  obtain ⟨w, g0, -, -, -, hg⟩ := init_wf (henv 0) c2
  exact whileBelow_loop hstd hb hv envs henv ht limit k 1 _ (hg hv) (by simp [g0]) (by simp [g0]; omega) (by simp [g0]) (by simp)
    fin st c3

end

/-! ### OneMax -/

/-- The literal `0.999999`. -/
def nearlyOne : F64 := F64.lit (999999 / 1000000)

/-- The closure of the three programs. -/
def docProgress : Unit → Population OneMax → Prog (Bool × Unit) := whileBelow nearlyOne 100

theorem nearlyOne_val : nearlyOne.isFinite = true ∧ nearlyOne.val = rndQ (999999 / 1000000) := by decide +kernel

/-- **C95** Up to 999999 bits, the fitness is at least `0.999999` only if all bits are `true`. -/
theorem C95_target (x : OneMax) (h0 : x.genome ≠ []) (hn : x.genome.length < 1000000) :
    nearlyOne.le (fitness (OneMax.evaluate x)) = true ↔ x.genome = List.replicate x.genome.length true := by
  obtain ⟨-, c2, c3, -, -, -⟩ := C63_ratio x h0 (by omega)
  have hpos : (0 : ℚ) < x.genome.length := by exact_mod_cast List.length_pos_of_ne_nil h0
  rw [F64.le_finite nearlyOne_val.1 c2, nearlyOne_val.2, c3, List.eq_replicate_iff]
  have hle : ones x.genome ≤ x.genome.length := List.count_le_length
  constructor
  · intro h
    refine ⟨rfl, fun b hb => (List.count_eq_length.1 (le_antisymm hle ?_) b hb).symm⟩
    by_contra hc
    have hle2 : (ones x.genome : ℚ) + 1 ≤ x.genome.length := by exact_mod_cast Nat.succ_le_of_lt (not_le.1 hc)
    have hnq : (x.genome.length : ℚ) ≤ 999999 := by exact_mod_cast (by omega : x.genome.length ≤ 999999)
    have h1 : (ones x.genome : ℚ) / x.genome.length ≤ 999998 / 999999 := by
      rw [div_le_div_iff₀ hpos (by norm_num)]
      linarith
    have h2 : rndQ (999998 / 999999) < rndQ (999999 / 1000000) := by decide +kernel
    exact absurd (h.trans (rndQ_mono h1)) (not_le.2 h2)
  · rintro ⟨-, h⟩
    have : ones x.genome = x.genome.length := List.count_eq_length.2 fun b hb => (h b hb).symm
    rw [this, div_self hpos.ne']
    exact rndQ_mono (by norm_num)

/-- **C95** From a million bits on, a genome with one `false` bit has it as well. -/
theorem C95_early (x : OneMax) (h1 : 1000000 ≤ x.genome.length) (hn : x.genome.length ≤ 2 ^ 53)
    (ho : x.genome.length ≤ x.genome.count true + 1) : nearlyOne.le (fitness (OneMax.evaluate x)) = true := by
  have h0 : x.genome ≠ [] := fun h => by rw [h] at h1; simp at h1
  obtain ⟨-, c2, c3, -, -, -⟩ := C63_ratio x h0 hn
  have hpos : (0 : ℚ) < x.genome.length := by exact_mod_cast List.length_pos_of_ne_nil h0
  rw [F64.le_finite nearlyOne_val.1 c2, nearlyOne_val.2, c3]
  refine rndQ_mono ?_
  have h2 : (x.genome.length : ℚ) ≤ ones x.genome + 1 := by exact_mod_cast ho
  have h3 : (1000000 : ℚ) ≤ x.genome.length := by exact_mod_cast h1
  rw [div_le_div_iff₀ (by norm_num) hpos]
  linarith

section
variable {alg : EvoAlgo OneMax Unit Empty A P} {elite size : A → Nat} {eliteOf : P → Nat} {okP : P → Prop}

theorem oneMax_evaluates {n : Nat} (h0 : n ≠ 0) (hn : n ≤ 2 ^ 53) (model : Unit) (x : OneMax) (hx : x.genome.length = n) :
    Always (fun e => isValid e = true) (OneMax.model.evaluate model x) := by
  show Always _ (pure (OneMax.evaluate x))
  rw [always_pure]
  exact (C63_ratio x (by intro h; rw [h] at hx; exact h0 hx.symm) (by omega)).2.2.2.2.2

theorem doc_evolves (hstd : Standard OneMax.model alg elite size eliteOf) (halg : SafeAlgo alg okP) (envs : Nat → Env OneMax)
    (henv : ∀ t, (envs t).Lawful) (k : Nat) (hk : 102 ≤ k) (a : A) (n : Nat) (h0 : n ≠ 0) (hn : n ≤ 2 ^ 53) (p : P)
    (hp : okP p) (h2 : 2 ≤ alg.initialSize p) (hs : alg.initialSize p < 2 ^ 32) (init : List OneMax)
    (hl : init.length = alg.initialSize p) (hg : ∀ x ∈ init, x.genome.length = n) :
    Always (fun r => r.1 = true ∧ GoodPop r.2.population ∧ r.2.shown.length = r.2.population.generation + 1 ∧
      r.2.population.generation ≤ 101 ∧ (Reached nearlyOne r.2.population ∨ r.2.population.generation = 101) ∧
      ∃ pre, r.2.shown = pre ++ [r.2.population] ∧ ∀ pop ∈ pre, ¬ Reached nearlyOne pop)
      (evolvePopulation alg envs docProgress k a init p ()) := by
  refine C95_ends hstd halg (C63_operators (fun _ => True) n h0) oneMax_breedsValid validNotNaN_default envs henv nearlyOne
    (F64.isNaN_of_finite nearlyOne_val.1) 100 k hk a init p () hp h2 hs (hl ▸ hs) (fun x hx => ⟨hg x hx, by simp⟩) ?_
  obtain ⟨x, hx⟩ := List.exists_mem_of_ne_nil init (fun e => by rw [e] at hl; simp at hl; omega)
  exact ⟨x, hx, oneMax_evaluates h0 hn _ x (hg x hx)⟩

/-- If an individual of the initial population is at the target, the closure is called once. -/
theorem doc_at_once (hstd : Standard OneMax.model alg elite size eliteOf) (halg : SafeAlgo alg okP) (envs : Nat → Env OneMax)
    (henv : ∀ t, (envs t).Lawful) (k : Nat) (hk : 102 ≤ k) (a : A) (n : Nat) (h0 : n ≠ 0) (hn : n ≤ 2 ^ 53) (p : P)
    (hp : okP p) (h2 : 2 ≤ alg.initialSize p) (hs : alg.initialSize p < 2 ^ 32) (init : List OneMax)
    (hl : init.length = alg.initialSize p) (hg : ∀ x ∈ init, x.genome.length = n) (x : OneMax) (hx : x ∈ init)
    (ht : nearlyOne.le (fitness (OneMax.evaluate x)) = true) :
    Always (fun r => r.1 = true ∧ GoodPop r.2.population ∧ r.2.shown = [r.2.population] ∧ Reached nearlyOne r.2.population ∧
      ∀ y ∈ r.2.population.individuals, ∃ z ∈ init, y = OneMax.evaluate z) (evolvePopulation alg envs docProgress k a init p ()) := by
  refine ((doc_evolves hstd halg envs henv k hk a n h0 hn p hp h2 hs init hl hg).and fun r hr => hr).mono ?_
  rintro ⟨fin, st⟩ ⟨⟨-, -, -, -, -, -⟩, hr⟩
  obtain ⟨a'', pop, c1, c2, c3⟩ := (yields_evolvePopulation _ _ _ _ _ _ _ _ _).1 hr
  rw [hstd.init] at c2
  have hgood := (init_wf (henv 0) c2).2.2.2.2.2 validNotNaN_default
  have hmap : ∀ l : List OneMax, Prog.mapList (OneMax.model.evaluate (alg.model a'')) l = pure (l.map OneMax.evaluate) := by
    intro l
    induction l with
    | nil => rfl
    | cons y l ih =>
      rw [Prog.mapList, ih]
      rfl
  unfold defaultInitialize at c2
  rw [hmap, bind_pure_left] at c2
  simp only [yields_lift] at c2
  obtain ⟨-, -, hind, -, -⟩ := Population.wf_new (henv 0).sort c2.symm
  have hv : isValid (OneMax.evaluate x) = true := by
    have := (always_pure _ _).1 (oneMax_evaluates h0 hn (alg.model a'') x (hg x hx))
    exact this
  have hre : Reached nearlyOne pop :=
    reached_dedup_sort oneMax_eqFitness (henv 0) hind (List.mem_filter.2 ⟨List.mem_map.2 ⟨x, hx, rfl⟩, hv⟩) ht
  obtain ⟨y, -, -, -, e, hy⟩ := whileBelow_eq (limit := 100) (q := ()) (F64.isNaN_of_finite nearlyOne_val.1) validNotNaN_default hgood
  obtain ⟨k, rfl⟩ : ∃ j, k = j + 1 := ⟨k - 1, by omega⟩
  rcases (yields_evolveLoop_succ _ _ _ _ _ _ _).1 c3 with ⟨q1, g1, e1⟩ | ⟨q1, st2, g1, -, -⟩
  · cases e1
    refine ⟨rfl, hgood, rfl, hre, fun z hz => ?_⟩
    simp only at hz
    rw [hind] at hz
    obtain ⟨w, hw, rfl⟩ := List.mem_map.1 (List.mem_filter.1 (mem_dedup_sort (henv 0).sort hz)).1
    exact ⟨w, hw, rfl⟩
  · unfold docProgress at g1
    simp only at g1
    rw [e, hy.2 hre] at g1
    simp at g1

/-- **C95** The programs with up to 999999 bits: `run` returns an individual after at most 101 generations, and the assertion holds exactly
if its fitness is at least `0.999999`; if it fails, all 101 generations have been bred. -/
theorem C95_run (hstd : Standard OneMax.model alg elite size eliteOf) (halg : SafeAlgo alg okP) (envs : Nat → Env OneMax)
    (henv : ∀ t, (envs t).Lawful) (k : Nat) (hk : 102 ≤ k) (a : A) (n : Nat) (h0 : n ≠ 0) (hn : n < 1000000) (p : P)
    (hp : okP p) (h2 : 2 ≤ alg.initialSize p) (hs : alg.initialSize p < 2 ^ 32) :
    Always (fun r => ∃ x, r.1 = some x ∧ x.genome.length = n ∧ fitness x = fitness (OneMax.evaluate x) ∧
      r.2.shown.length = r.2.population.generation + 1 ∧ r.2.population.generation ≤ 101 ∧
      (x.genome = List.replicate n true ↔ nearlyOne.le (fitness x) = true) ∧
      (x.genome ≠ List.replicate n true → r.2.population.generation = 101))
      (runRandom OneMax.model alg envs docProgress k a (OneMax.newRandom n) p ()) := by
  refine ((C63_run hstd halg envs henv docProgress (fun q p w => whileBelow_always w) k a n h0 (by omega) p () hp h2 hs).and
    fun r hr => hr).mono ?_
  rintro ⟨o, st⟩ ⟨⟨hx, -⟩, hr⟩
  obtain ⟨init, g1, ⟨fin, st1⟩, g2, g3⟩ : ∃ init, (defaultExtend (OneMax.newRandom n) [] (alg.initialSize p)).yields (.ok init) ∧
      ∃ r, (evolvePopulation alg envs docProgress k a init p ()).yields (.ok r) ∧ (takeResult r).yields (.ok (o, st)) := by
    obtain ⟨init, g1, g2⟩ := (yields_bind_ok _ _ _).1 hr
    exact ⟨init, g1, (yields_bind_ok _ _ _).1 g2⟩
  obtain ⟨l1, l2⟩ := (random_population n _ (by omega)).partially init g1
  obtain ⟨rfl, hgood, e1, e2, e3, -⟩ :=
    (doc_evolves hstd halg envs henv k hk a n h0 (by omega) p hp h2 hs init l1 l2).partially _ g2
  obtain ⟨rfl, g3⟩ := (yields_takeResult _ _ _).1 g3
  rcases g3 with ⟨-, x, hy, rfl⟩ | ⟨h, -⟩
  · obtain ⟨k1, k2⟩ := hx x rfl
    obtain ⟨b, hb1, hb2, -, hb4⟩ := hgood.best validNotNaN_default
    rw [hgood.wf.fittest_ok.2, hb2] at hy
    cases hy
    have hiff : x.genome = List.replicate n true ↔ nearlyOne.le (fitness x) = true := by
      rw [k2, C95_target x (by intro h; rw [h] at k1; exact h0 k1.symm) (by omega), k1]
    refine ⟨x, rfl, k1, k2, e1, e2, hiff, fun hno => ?_⟩
    rcases e3 with ⟨y, hy, hle⟩ | e3
    · exact absurd (hiff.2 (F64.le_trans hle (hb4 y hy))) hno
    · exact e3
  · cases h

/-- The best individual of a population at the target is taken. -/
theorem take_reached {st : RunState OneMax A Unit} (hg : GoodPop st.population) (hr : Reached nearlyOne st.population) :
    ∃ x ∈ st.population.individuals, takeResult (true, st) = pure (some x, st) ∧ nearlyOne.le (fitness x) = true := by
  obtain ⟨b, hb1, hb2, -, hb4⟩ := hg.best validNotNaN_default
  obtain ⟨y, hy, hle⟩ := hr
  refine ⟨b, hb1, ?_, F64.le_trans hle (hb4 y hy)⟩
  unfold takeResult
  simp only [if_true]
  rw [hg.wf.fittest_ok.2, hb2, lift_ok, bind_pure_left]

/-- How likely a random population contains a genome of `true` bits only. -/
theorem prob_some_true (n N : Nat) (hN : N ≠ 0) :
    (defaultExtend (OneMax.newRandom n) [] N).prob (fun l => ∃ x ∈ l, x.genome = List.replicate n true) = 1 - (1 - 1 / 2 ^ n) ^ N := by
  have hz : Always (fun x : OneMax => x.fit = F64.zero) (OneMax.newRandom n) := by
    unfold OneMax.newRandom
    rw [always_bind]
    have hb : Always (fun _ => True) OneMax.randomBit := by
      unfold OneMax.randomBit
      rw [always_bind, always_uniform]
      exact ⟨by norm_num, fun i _ => by simp⟩
    exact (always_replicate _ _ hb n).mono fun l hl => by rw [always_pure]; rfl
  have h1 : (OneMax.newRandom n).prob (fun x => x.genome = List.replicate n true) = 1 / 2 ^ n := by
    have := C63_new_random (List.replicate n true)
    rw [List.length_replicate] at this
    rw [← this]
    refine prob_congr _ _ _ fun x hx => ?_
    have := hz.partially x hx
    cases x
    simp_all
  have h2 := prob_add_not_of_always (OneMax.newRandom n) (fun x => x.genome = List.replicate n true) (hz.mono fun _ _ => trivial)
  have hall : Always (fun _ => True) (defaultExtend (OneMax.newRandom n) [] N) := (random_population n N hN).mono fun _ _ => trivial
  have h3 := prob_add_not_of_always _ (fun l : List OneMax => ∃ x ∈ l, x.genome = List.replicate n true) hall
  have h4 : (defaultExtend (OneMax.newRandom n) [] N).prob (fun l => ¬ ∃ x ∈ l, x.genome = List.replicate n true) = (1 - 1 / 2 ^ n) ^ N := by
    rw [← prob_congr (defaultExtend (OneMax.newRandom n) [] N) (fun l => ∀ x ∈ l, ¬ x.genome = List.replicate n true) _
      (fun l _ => by simp)]
    unfold defaultExtend
    rw [if_neg hN, prob_bind_pure _ _ (fun l => [] ++ l) (fun _ _ => rfl)]
    simp only [List.nil_append]
    rw [prob_replicate_all, show (OneMax.newRandom n).prob (fun x => ¬ x.genome = List.replicate n true) = 1 - 1 / 2 ^ n by linarith]
  linarith

/-- **C95** How likely the assertion holds, up to 999999 bits: at least with the probability that the random initial population of `N`
contains the solution, at most with that that it contains some `true` bit. -/
theorem C95_probability (hstd : Standard OneMax.model alg elite size eliteOf) (halg : SafeAlgo alg okP)
    (envs : Nat → Env OneMax) (henv : ∀ t, (envs t).Lawful) (k : Nat) (hk : 102 ≤ k) (a : A) (n : Nat) (h0 : n ≠ 0) (hn : n < 1000000) (p : P)
    (hp : okP p) (h2 : 2 ≤ alg.initialSize p) (hs : alg.initialSize p < 2 ^ 32) :
    1 - (1 - 1 / 2 ^ n) ^ alg.initialSize p ≤
      (runRandom OneMax.model alg envs docProgress k a (OneMax.newRandom n) p ()).prob (Solved n) ∧
    (runRandom OneMax.model alg envs docProgress k a (OneMax.newRandom n) p ()).prob (Solved n) ≤
      1 - 1 / 2 ^ (n * alg.initialSize p) := by
  constructor
  · rw [← prob_some_true n _ (by omega), ← one_mul (Prog.prob (defaultExtend _ _ _) _)]
    refine mul_prob_le_bind _ _ _ _ _ fun init hi ⟨x, hx, hxt⟩ => ?_
    obtain ⟨l1, l2⟩ := (random_population n _ (by omega)).partially init hi
    have hlen := l2 x hx
    refine (prob_eq_one_of_always _ _ ?_).ge
    rw [always_bind]
    refine (doc_at_once hstd halg envs henv k hk a n h0 (by omega) p hp h2 hs init l1 l2 x hx
      ((C95_target x (by intro h; rw [h] at hlen; exact h0 hlen.symm) (by omega)).2 (by rw [hlen]; exact hxt))).mono ?_
    rintro ⟨fin, st⟩ ⟨rfl, hg, -, hr, hfrom⟩
    obtain ⟨y, hy, e, hle⟩ := take_reached hg hr
    rw [e, always_pure]
    obtain ⟨z, hz, rfl⟩ := hfrom y hy
    have hzl := l2 z hz
    have := (C95_target z (by intro h; rw [h] at hzl; exact h0 hzl.symm) (by omega)).1 hle
    rw [hzl] at this
    show Option.map _ (some _) = _
    rw [Option.map_some]
    exact congrArg some this
  · rw [← (prob_all_false n (alg.initialSize p) (by omega)).2, ← one_mul (Prog.prob (defaultExtend _ _ _) _)]
    refine prob_bind_le _ _ _ _ _ (fun _ _ _ => prob_le_one _ _) fun init hi hall => ?_
    have hall : ∀ x ∈ init, x.genome = List.replicate n false := by simpa using hall
    obtain ⟨l1, l2⟩ := (random_population n (alg.initialSize p) (by omega)).partially init hi
    refine prob_eq_zero _ _ fun r hr hsol => ?_
    obtain ⟨⟨fin, st1⟩, g2, g3⟩ := (yields_bind_ok _ _ _).1 hr
    obtain ⟨o, st⟩ := r
    have hne : init ≠ [] := fun e => by rw [e] at l1; simp at l1; omega
    have hrun := (C63_no_new_bits hstd halg envs henv docProgress (fun q p w => whileBelow_always w) k a n
      h0 (by omega) p () hp h2 hs false init hne (by rw [l1]; exact hs) hall).partially _ g2
    cases o with
    | none => cases hsol
    | some x =>
      obtain ⟨rfl, g3⟩ := (yields_takeResult _ _ _).1 g3
      rcases g3 with ⟨-, y, hy, hxy⟩ | ⟨-, hxy⟩
      · cases hxy
        have := hrun.2 x (takeFittest_mem hy)
        unfold Solved at hsol
        rw [Option.map_some, this] at hsol
        have := congrArg (fun o => o.map fun l => l[0]?) hsol
        simp [show 0 < n by omega] at this
      · cases hxy

/-- **C95** From a million bits on, `run` may stop at once, without a single generation, and return a genome with a `false` bit. -/
theorem C95_million (hstd : Standard OneMax.model alg elite size eliteOf) (halg : SafeAlgo alg okP) (envs : Nat → Env OneMax)
    (henv : ∀ t, (envs t).Lawful) (k : Nat) (hk : 102 ≤ k) (a : A) (n : Nat) (h1 : 1000000 ≤ n) (hn : n ≤ 2 ^ 53) (p : P)
    (hp : okP p) (h2 : 2 ≤ alg.initialSize p) (hs : alg.initialSize p < 2 ^ 32) :
    ∃ x st, (runRandom OneMax.model alg envs docProgress k a (OneMax.newRandom n) p ()).yields (.ok (some x, st)) ∧
      x.genome.count false = 1 ∧ nearlyOne.le (fitness x) = true ∧ st.shown = [st.population] := by
  set g := false :: List.replicate (n - 1) true with hgdef
  have hgl : g.length = n := by simp [hgdef]; omega
  set init := List.replicate (alg.initialSize p) (OneMax.ofGenome g) with hinit
  have hi : (defaultExtend (OneMax.newRandom n) [] (alg.initialSize p)).yields (.ok init) := by
    rw [C49_extend]
    refine ⟨init, rfl, by simp [hinit], fun x hx => ?_⟩
    rw [List.eq_of_mem_replicate hx, OneMax.newRandom, yields_bind_ok]
    refine ⟨g, (yields_replicate _ _ _).2 ⟨hgl, fun b _ => ?_⟩, rfl⟩
    unfold OneMax.randomBit
    rw [yields_bind_ok]
    cases b
    · exact ⟨0, (yields_uniform _ _).2 (Or.inr ⟨0, by norm_num, rfl⟩), rfl⟩
    · exact ⟨1, (yields_uniform _ _).2 (Or.inr ⟨1, by norm_num, rfl⟩), rfl⟩
  have hmem : OneMax.ofGenome g ∈ init := List.mem_replicate.2 ⟨by omega, rfl⟩
  have hat := doc_at_once hstd halg envs henv k hk a n (by omega) hn p hp h2 hs init (by simp [hinit])
    (fun x hx => by rw [List.eq_of_mem_replicate hx]; exact hgl) _ hmem
    (C95_early _ (by show 1000000 ≤ g.length; omega) (by show g.length ≤ _; omega) (by
      show g.length ≤ g.count true + 1
      rw [hgl, hgdef]
      simp; omega))
  obtain ⟨r, hr⟩ := exists_yields (evolvePopulation alg envs docProgress k a init p ())
  obtain ⟨⟨fin, st⟩, rfl, rfl, hg, hsh, hre, hfrom⟩ := hat r hr
  obtain ⟨y, hy, e, hle⟩ := take_reached hg hre
  refine ⟨y, st, ?_, ?_, hle, hsh⟩
  · refine (yields_bind_ok _ _ _).2 ⟨init, hi, (yields_bind_ok _ _ _).2 ⟨_, hr, ?_⟩⟩
    rw [e]; rfl
  · obtain ⟨z, hz, rfl⟩ := hfrom y hy
    rw [List.eq_of_mem_replicate hz]
    show g.count false = 1
    rw [hgdef]
    simp [List.count_replicate]

end

/-! ### The three programs -/

/-- The parameters of `aga.rs:137-140`. -/
def docAgaParams : AgaParams := { AgaParams.default with selectionStrategy := .tournament 4 }

theorem docAgaParams_ok : docAgaParams.Valid ∧ docAgaParams.selectionStrategy.Valid ∧
    ∀ b, docAgaParams.selectionStrategy = .linear b → SafeBias b :=
  ⟨C50_defaults.2.2.1, by simp [docAgaParams, SelectionStrategy.Valid], by simp [docAgaParams]⟩

/-- What C95 says of one of the programs, with the algorithm `alg` and the parameters `p`. -/
def DocProgram (alg : EvoAlgo OneMax Unit Empty A P) (a : A) (p : P) : Prop :=
  ∀ (envs : Nat → Env OneMax), (∀ t, (envs t).Lawful) → ∀ k, 102 ≤ k →
    Always (fun r => ∃ x, r.1 = some x ∧ x.genome.length = 100 ∧ r.2.shown.length ≤ 102 ∧
      (x.genome ≠ List.replicate 100 true → r.2.population.generation = 101 ∧ (fitness x).lt nearlyOne = true))
      (runRandom OneMax.model alg envs docProgress k a (OneMax.newRandom 100) p ()) ∧
    1 - (1 - 1 / 2 ^ 100) ^ 100 ≤ (runRandom OneMax.model alg envs docProgress k a (OneMax.newRandom 100) p ()).prob (Solved 100) ∧
    (runRandom OneMax.model alg envs docProgress k a (OneMax.newRandom 100) p ()).prob (Solved 100) ≤ 1 - 1 / 2 ^ 10000

theorem docProgram {alg : EvoAlgo OneMax Unit Empty A P} {elite size : A → Nat} {eliteOf : P → Nat} {okP : P → Prop}
    (hstd : Standard OneMax.model alg elite size eliteOf) (halg : SafeAlgo alg okP) (a : A) (p : P) (hp : okP p)
    (hsz : alg.initialSize p = 100) : DocProgram alg a p := by
  intro envs henv k hk
  have hrun := C95_run hstd halg envs henv k hk a 100 (by norm_num) (by norm_num) p hp (by omega) (by omega)
  have hpr := C95_probability hstd halg envs henv k hk a 100 (by norm_num) (by norm_num) p hp (by omega) (by omega)
  rw [hsz] at hpr
  refine ⟨(hrun.and fun r hr => hr).mono ?_, hpr⟩
  rintro r ⟨⟨x, h1, h2, h3, h4, h5, h6, h7⟩, -⟩
  refine ⟨x, h1, h2, by omega, fun hno => ⟨h7 hno, ?_⟩⟩
  have hf : (fitness x).isFinite = true := by
    rw [h3]
    exact (C63_ratio x (by intro h; rw [h] at h2; cases h2) (by omega)).2.1
  refine F64.lt_of_not_le (F64.isNaN_of_finite hf) (F64.isNaN_of_finite nearlyOne_val.1) ?_
  simpa using fun h => hno (h6.2 h)

/-- **C95** The programs of `README.md:143-159`, of `GeneticAlgorithm` (`ga.rs:111-131`) and of `AdaptiveGeneticAlgorithm`
(`aga.rs:129-147`): they end after at most 102 calls of the closure with an individual of 100 bits; the assertion at their end may fail, then
after 101 generations and with a fitness below `0.999999`. -/
theorem C95_documentation : DocProgram (ga OneMax.model) (Ga.ofModel ()) GaParams.default ∧
    DocProgram (ga OneMax.model) (Ga.ofModel ()) docParams ∧ DocProgram (aga OneMax.model) (Aga.ofModel ()) docAgaParams :=
  ⟨docProgram (ga_standard _) (ga_safe (C63_operators (fun _ => True) 100 (by norm_num))) _ _ (default_oneMax.okP) rfl,
    docProgram (ga_standard _) (ga_safe (C63_operators (fun _ => True) 100 (by norm_num))) _ _ (doc_oneMax.okP) rfl,
    docProgram (aga_standard _) (aga_safe (C63_operators (fun _ => True) 100 (by norm_num))) _ _ docAgaParams_ok rfl⟩

-- the hypotheses of `C95_million` hold of the default parameters
example : ∃ x st, (runRandom OneMax.model (ga OneMax.model) (fun _ => oneEnv) docProgress 102 (Ga.ofModel ()) (OneMax.newRandom 1000000)
    GaParams.default ()).yields (.ok (some x, st)) ∧ x.genome.count false = 1 ∧ nearlyOne.le (fitness x) = true ∧
    st.shown = [st.population] :=
  C95_million (ga_standard _) (ga_safe (C63_operators (fun _ => True) 100 (by norm_num))) _ (fun _ => oneEnv_lawful) 102 (le_refl _) _ 1000000
    (le_refl _) (by norm_num) _ default_oneMax.okP (by simp [ga, GaParams.default]) (by simp [ga, GaParams.default])

-- one `false` bit in four: below the target; in a genome of two `true` bits: at the target
example : nearlyOne.le (fitness (OneMax.evaluate (.ofGenome [true, true, false, true]))) = false ∧
    nearlyOne.le (fitness (OneMax.evaluate (.ofGenome [true, true]))) = true := by decide +kernel

end RG.Props
