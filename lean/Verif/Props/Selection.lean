import Verif.Proofs.Selection
import Verif.Proofs.RealArith
import Verif.Proofs.Wheel
import Mathlib.Tactic.IntervalCases
import Mathlib.Logic.Relation

/-!
# Properties C38–C46: parent selection
-/

set_option linter.unusedSectionVars false

namespace RG.Props
open RG RG.Arith RG.Prog
variable {I : Type} [Individual I]

/-- A small population for the examples: the individuals are their fitness values. -/
local instance exF64 : Individual F64 where
  fitness x := x
  eq a b := a.feq b

/-- Five individuals of fitness 1, 2, 3, 4, 10. -/
def exPop : Population F64 :=
  { individuals := [1, 2, 3, 4, 10].map F64.ofNat, generation := 0, stagnation := 0,
    stats := ⟨Stats.collect ([1, 2, 3, 4, 10].map F64.ofNat)⟩ }

/-! ### C38 -/

/-- **C38** Every built-in selector with a parameter in the range its constructor enforces (`Linear` with a safe bias) returns
a member of a non-empty population together with its index, without panicking: whatever the fitness values (NaN, infinite,
negative), the prepared state, `exp`, and the random source. -/
theorem C38_member (env : NumEnv) (p : Population I) (hp : p.individuals ≠ []) (hn : p.individuals.length ≤ 2 ^ 53)
    (s : Selector) (hs : s.InRange) (hl : ∀ b, s = .linear b → SafeBias b.bias) (hr : s = .rank → p.individuals.length < 2 ^ 32) :
    Always (IsMember p) (s.select env p) := by
  have hlen : 0 < p.len := List.length_pos_of_ne_nil hp
  have hw : ∀ (ws : List F64) (total u : F64), ws.length = p.len →
      Always (IsMember p) (Prog.lift (wheelIndex ws total u) >>= fun i => Prog.lift (memberAt p i)) := by
    intro ws total u hws
    obtain ⟨j, hj, hpick⟩ := wheelIndex_spec ws total u (by rintro rfl; simp at hws; omega)
    rw [hj, Prog.lift_ok, Prog.bind_pure_left]
    exact isMember_memberAt (by rw [← hws]; exact hpick.1)
  cases s with
  | tournament s =>
    show Always _ (s.select p)
    rw [s.select_eq p hlen, always_bind]
    refine (always_draws hlen s.size).mono fun l hl => ?_
    obtain ⟨m, hm, _, _, hmn⟩ := max_of_draws (by rintro rfl; exact hs hl.1.symm) hl.2
    rw [hm, Res.ofOption_some, Prog.lift_ok, Prog.bind_pure_left]
    exact isMember_memberAt hmn
  | rouletteWheel s =>
    show Always _ (s.select p)
    unfold RouletteWheelSelection.select
    rw [always_bind, always_genF64]
    exact fun k _ => hw _ _ _ (by simp [Population.len])
  | boltzmann s =>
    show Always _ (s.select env p)
    unfold BoltzmannSelection.select
    rw [always_bind, always_genF64]
    exact fun k _ => hw _ _ _ (by simp [Population.len])
  | rank =>
    have hn32 := hr rfl
    show Always _ (rankSelect p)
    unfold rankSelect
    obtain ⟨h1, h2⟩ := totalRanks_ok (n := p.len) hn32
    simp only [h1, Prog.lift_ok, Prog.bind_pure_left]
    rw [always_bind, always_rangeIncl]
    refine ⟨tri_pos hlen, fun t ht1 ht2 => ?_⟩
    have h0 : tri 0 = 0 := rfl
    obtain ⟨j, hj, _, hjn, _⟩ := rankScan_ok t p.len 0 (by omega) (by rwa [Nat.zero_add])
      (by rw [Nat.zero_add]; omega)
    rw [h0] at hj
    rw [hj, Prog.lift_ok, Prog.bind_pure_left]
    exact isMember_memberAt (by omega)
  | linear b =>
    show Always _ (b.select p)
    unfold LinearSelection.select
    rw [always_bind, always_genF64]
    intro k hk
    obtain ⟨i, hi, he⟩ := hl b rfl p.len hlen hn k hk
    rw [he, Prog.lift_ok, Prog.bind_pure_left]
    exact isMember_memberAt hi
  | elitist s =>
    show Always _ (s.select p)
    unfold ElitistSelection.select
    rw [always_bind, always_rangeExcl]
    obtain ⟨_, hb⟩ := s.bound_spec (inHalfOpenUnit_iff.2 hs) hn
    exact ⟨hb hlen, fun i _ hi => isMember_memberAt hi⟩

/-- Non-vacuity of C38, and the probability-1 reading of it. -/
example (env : NumEnv) : Always (IsMember exPop) ((Selector.elitist ⟨F64.lit (1 / 2)⟩).select env exPop) :=
  C38_member env exPop (by decide) (by decide) _ (inHalfOpenUnit_iff.1 (by decide +kernel)) (by simp) (by simp)

/-- **C38** On an empty population every selector panics. -/
theorem C38_empty (env : NumEnv) (p : Population I) (hp : p.individuals = []) (s : Selector) (r : Res (Nat × I))
    (h : (s.select env p).yields r) : r = .panic := by
  have hlen : p.len = 0 := by simp [Population.len, hp]
  have hm : ∀ i, memberAt p i = .panic := by intro i; simp [memberAt, index, hp]
  cases s with
  | tournament s =>
    simp only [Selector.select, TournamentSelection.select, hlen] at h
    exact h
  | rouletteWheel s =>
    simp only [Selector.select, RouletteWheelSelection.select, hp, List.map_nil] at h
    rw [yields_bind] at h
    simp only [yields_genF64] at h
    rcases h with ⟨a, _, h⟩ | ⟨⟨_, _, h⟩, _⟩ | ⟨⟨_, _, h⟩, _⟩
    · exact h
    · cases h
    · cases h
  | boltzmann s =>
    simp only [Selector.select, BoltzmannSelection.select, BoltzmannSelection.selectIndex, hp, List.map_nil] at h
    rw [yields_bind] at h
    simp only [yields_genF64] at h
    rcases h with ⟨a, _, h⟩ | ⟨⟨_, _, h⟩, _⟩ | ⟨⟨_, _, h⟩, _⟩
    · exact h
    · cases h
    · cases h
  | rank =>
    simp only [Selector.select, rankSelect, hlen] at h
    exact h
  | linear b =>
    simp only [Selector.select, LinearSelection.select, LinearSelection.selectIndex, hlen] at h
    rw [yields_bind] at h
    simp only [yields_genF64] at h
    rcases h with ⟨a, _, h⟩ | ⟨⟨_, _, h⟩, _⟩ | ⟨⟨_, _, h⟩, _⟩
    · unfold usizeSub at h
      rw [yields_bind] at h
      rcases h with ⟨i, hi, h⟩ | h | h
      · rw [hm] at h; exact h
      · exact h.2
      · exfalso
        have := h.1
        simp only [Prog.lift, yields_done] at this
        split at this <;> simp at this
    · cases h
    · cases h
  | elitist s =>
    simp only [Selector.select, ElitistSelection.select, hlen] at h
    rw [yields_bind] at h
    simp only [yields_rangeExcl] at h
    rcases h with ⟨a, ha, h⟩ | h | ⟨h, _⟩
    · rw [hm] at h; exact h
    · exact h.2
    · rcases h with h | ⟨i, _, _, h⟩
      · cases h.2
      · cases h

/-! ### C39 -/

/-- **C39** (best of the sample) On a sorted population, tournament selection draws `size` indices uniformly and
independently and returns the drawn individual of greatest index, which is a fittest one among those drawn. -/
theorem C39_best_of_sample (s : TournamentSelection) (hs : s.size ≠ 0) (p : Population I) (hp : p.individuals ≠ [])
    (hsorted : p.individuals.Pairwise fun a b => (fitness a).le (fitness b) = true) :
    ∃ f : List Nat → Res (Nat × I),
      s.select p = (Prog.replicate s.size (Prog.uniform p.individuals.length) >>= fun l => Prog.lift (f l)) ∧
      ∀ l : List Nat, l.length = s.size → (∀ i ∈ l, i < p.individuals.length) →
        ∃ i x, f l = .ok (i, x) ∧ i ∈ l ∧ p.individuals[i]? = some x ∧
          ∀ j ∈ l, j ≤ i ∧ ∀ y, p.individuals[j]? = some y → j = i ∨ (fitness y).le (fitness x) = true := by
  have hlen : 0 < p.len := List.length_pos_of_ne_nil hp
  refine ⟨fun l => (Res.ofOption l.max?) >>= memberAt p, ?_, ?_⟩
  · rw [s.select_eq p hlen]
    show (Prog.replicate s.size (Prog.uniform p.individuals.length) >>= _) = _
    congr 1
    funext l
    simp only
    cases l.max? <;> rfl
  · intro l hl hlt
    obtain ⟨m, hm, hmem, hmax, hmn⟩ := max_of_draws (by rintro rfl; exact hs hl.symm) hlt
    refine ⟨m, p.individuals[m], ?_, hmem, List.getElem?_eq_getElem hmn, ?_⟩
    · simp only [hm, Res.ofOption_some, Res.bind_ok]
      exact memberAt_ok hmn
    · intro j hj
      refine ⟨hmax j hj, fun y hy => ?_⟩
      rcases Nat.lt_or_eq_of_le (hmax j hj) with h | h
      · right
        have hjn := hlt j hj
        rw [List.getElem?_eq_getElem hjn] at hy
        cases hy
        exact List.pairwise_iff_getElem.1 hsorted j m hjn hmn h
      · exact Or.inl h

/-- **C39** (distribution) The individual at index `i` is selected with probability `((i+1)^k - i^k) / n^k`. -/
theorem C39_probability (s : TournamentSelection) (hs : s.size ≠ 0) (p : Population I) (i : Nat)
    (hi : i < p.individuals.length) :
    (s.select p).prob (fun r => r.1 = i) =
      (((i : ℚ) + 1) ^ s.size - (i : ℚ) ^ s.size) / (p.individuals.length : ℚ) ^ s.size := by
  have hlen : 0 < p.len := Nat.lt_of_le_of_lt (Nat.zero_le _) hi
  have hQ : ∀ m, m ≤ p.len → (Prog.uniform p.len).prob (fun a => a < m) = (m : ℚ) / p.len := by
    intro m hm
    rw [prob_uniform _ hlen]
    congr 2
    have : (Finset.range p.len).filter (fun a => a < m) = Finset.range m := by
      ext a; simp; omega
    rw [this, Finset.card_range]
  have hR : ∀ m, m ≤ p.len → (Prog.replicate s.size (Prog.uniform p.len)).prob (fun l => ∀ a ∈ l, a < m) =
      ((m : ℚ) / p.len) ^ s.size := by
    intro m hm
    rw [prob_replicate_all, hQ m hm]
  rw [s.select_eq p hlen]
  have hmax : ∀ l, (Prog.replicate s.size (Prog.uniform p.len)).yields (.ok l) →
      ∃ m, l.max? = some m ∧ m ∈ l ∧ (∀ a ∈ l, a ≤ m) ∧ m < p.len := by
    intro l hl
    have := draws_spec hl
    exact max_of_draws (by rintro rfl; exact hs this.1.symm) this.2
  have hne : ∃ x, x ∈ p.individuals := ⟨p.individuals[i], List.getElem_mem _⟩
  obtain ⟨x0, _⟩ := hne
  rw [prob_bind_pure _ _ (fun l => (l.max?.getD 0, (p.individuals[l.max?.getD 0]?).getD x0))]
  · rw [prob_sub _ _ (fun l => ∀ a ∈ l, a < i + 1) (fun l => ∀ a ∈ l, a < i), hR _ hi, hR _ (le_of_lt hi)]
    · show _ = _ / (p.len : ℚ) ^ s.size
      rw [div_pow, div_pow]; push_cast; ring
    · intro l hl
      obtain ⟨m, hm, hmem, hle, _⟩ := hmax l hl
      simp only [hm, Option.getD_some]
      constructor
      · rintro rfl
        exact ⟨fun a ha => Nat.lt_succ_of_le (hle a ha), fun h => absurd (h m hmem) (lt_irrefl _)⟩
      · rintro ⟨h1, h2⟩
        push Not at h2
        obtain ⟨a, ha, hai⟩ := h2
        have := h1 m hmem
        have := hle a ha
        omega
    · intro l _ h a ha
      exact Nat.lt_succ_of_lt (h a ha)
  · intro l hl
    obtain ⟨m, hm, _, _, hmn⟩ := hmax l hl
    simp only [hm, Res.ofOption_some, Prog.lift_ok, Prog.bind_pure_left, Option.getD_some]
    rw [memberAt_ok hmn, Prog.lift_ok, List.getElem?_eq_getElem hmn]
    rfl

example : ((⟨2⟩ : TournamentSelection).select exPop).prob (fun r => r.1 = 4) = 9 / 25 := by
  rw [C39_probability _ (by decide) _ _ (by decide)]
  norm_num [exPop]

/-! ### C40 -/

/-- **C40** For fewer than `2^32` individuals, rank selection returns index `i` with probability `(i+1) / (1+…+n)`. -/
theorem C40_probability (p : Population I) (hn : p.individuals.length < 2 ^ 32) (i : Nat)
    (hi : i < p.individuals.length) :
    (rankSelect p).prob (fun r => r.1 = i) =
      ((i : ℚ) + 1) / (p.individuals.length * (p.individuals.length + 1) / 2) := by
  have hlen : 0 < p.len := Nat.lt_of_le_of_lt (Nat.zero_le _) hi
  have htq : (tri p.len : ℚ) = (p.individuals.length : ℚ) * (p.individuals.length + 1) / 2 := by
    rw [eq_div_iff (by norm_num), mul_comm]
    exact_mod_cast tri_two p.len
  have hT := tri_pos hlen
  obtain ⟨h1, h2⟩ := totalRanks_ok (n := p.len) hn
  unfold rankSelect
  simp only [h1, Prog.lift_ok, Prog.bind_pure_left]
  rw [prob_rangeIncl_bind _ _ (by omega)]
  rw [← htq]
  have hsum : ∀ t ∈ Finset.Icc 1 (tri p.len), ((Prog.lift (rankScan t p.len 0 0) >>= fun r =>
      (match r with
      | some i => Prog.lift (memberAt p i)
      | none => Prog.lift (memberAt p 0) : Prog (Nat × I))).prob (fun r => r.1 = i)) =
        if tri i < t ∧ t ≤ tri (i + 1) then 1 else 0 := by
    intro t ht
    rw [Finset.mem_Icc] at ht
    have h0 : tri 0 = 0 := rfl
    obtain ⟨j, hj, _, hjn, hj1, hj2⟩ := rankScan_ok t p.len 0 (by omega) (by rw [Nat.zero_add]; exact ht.2)
      (by rw [Nat.zero_add]; omega)
    rw [h0] at hj
    rw [hj, Prog.lift_ok, Prog.bind_pure_left]
    simp only []
    rw [memberAt_ok (show j < p.len by omega), Prog.lift_ok, prob_pure]
    simp only
    by_cases hji : j = i
    · subst hji; rw [if_pos rfl, if_pos ⟨hj1, hj2⟩]
    · rw [if_neg hji, if_neg]
      rintro ⟨h3, h4⟩
      exact hji (tri_cell_unique hj1 hj2 h3 h4)
  refine Eq.trans (congrArg (· / ((tri p.len : ℚ) - (1 : Nat) + 1)) (Finset.sum_congr rfl hsum)) ?_
  rw [← Finset.sum_filter, Finset.sum_const, nsmul_eq_mul, mul_one]
  have hset : (Finset.Icc 1 (tri p.len)).filter (fun t => tri i < t ∧ t ≤ tri (i + 1)) =
      Finset.Icc (tri i + 1) (tri (i + 1)) := by
    have := tri_mono (show i + 1 ≤ p.len from hi)
    ext t; simp only [Finset.mem_filter, Finset.mem_Icc]; omega
  rw [hset, Nat.card_Icc, tri_succ]
  have e : tri i + (i + 1) + 1 - (tri i + 1) = i + 1 := by omega
  rw [e]
  push_cast
  congr 1
  ring

/-- **C40** The scan always finds an index: the final fallback `(0, population.first())` is unreachable, and no `usize`
overflow happens below `2^32` individuals. -/
theorem C40_fallback_unreachable (n : Nat) (hn : n < 2 ^ 32) :
    totalRanks n = .ok (n * (n + 1) / 2) ∧
    ∀ t, 1 ≤ t → t ≤ n * (n + 1) / 2 → ∃ i, i < n ∧ rankScan t n 0 0 = .ok (some i) := by
  obtain ⟨h1, h2⟩ := totalRanks_ok hn
  refine ⟨h1, fun t ht1 ht2 => ?_⟩
  have h0 : tri 0 = 0 := rfl
  have ht2' : t ≤ tri n := ht2
  obtain ⟨j, hj, _, hjn, _⟩ := rankScan_ok t n 0 (by omega) (by rwa [Nat.zero_add]) (by rw [Nat.zero_add]; omega)
  rw [h0] at hj
  exact ⟨j, by omega, hj⟩

/-- **C40** The bound is sharp: from `2^32` individuals on, the total rank overflows and selection panics (with overflow
checks). -/
theorem C40_overflow (p : Population I) (hn : 2 ^ 32 ≤ p.individuals.length) (r : Res (Nat × I))
    (h : (rankSelect p).yields r) : r = .panic := by
  unfold rankSelect at h
  simp only [show totalRanks p.len = .panic from totalRanks_overflow hn] at h
  exact h

example : (rankSelect exPop).prob (fun r => r.1 = 4) = 1 / 3 := by
  rw [C40_probability _ (by decide) _ (by decide)]; norm_num [exPop]

/-! ### C41 -/

/-- **C41** Elitist selection with a ratio in `[0,1)` on `0 < n ≤ 2^53` individuals: the bound `⌊n*ratio⌋` (`f64` product)
is below `n`, each index from the bound on has probability `1/(n - bound)`, and the others have probability 0. -/
theorem C41_uniform (s : ElitistSelection) (hs : s.ratio.isFinite = true ∧ 0 ≤ s.ratio.val ∧ s.ratio.val < 1)
    (p : Population I) (hp : p.individuals ≠ []) (hn : p.individuals.length ≤ 2 ^ 53) :
    ∃ bound : Nat, bound = ⌊rndQ (p.individuals.length * s.ratio.val)⌋.toNat ∧ bound < p.individuals.length ∧
      (∀ i, bound ≤ i → i < p.individuals.length →
        (s.select p).prob (fun r => r.1 = i) = 1 / (p.individuals.length - bound)) ∧
      ∀ i r, i < bound → (s.select p).yields (.ok r) → r.1 ≠ i := by
  have hlen : 0 < p.len := List.length_pos_of_ne_nil hp
  obtain ⟨hb, hb'⟩ := s.bound_spec (inHalfOpenUnit_iff.2 hs) (n := p.len) hn
  have hb'' := hb' hlen
  refine ⟨s.bound p.len, hb, hb'', ?_, ?_⟩
  · intro i h1 h2
    unfold ElitistSelection.select
    rw [prob_rangeExcl_bind _ _ hb'']
    have : ∀ j ∈ Finset.Ico (s.bound p.len) p.len, (Prog.lift (memberAt p j)).prob (fun r => r.1 = i) =
        if j = i then 1 else 0 := by
      intro j hj
      rw [Finset.mem_Ico] at hj
      rw [memberAt_ok hj.2, Prog.lift_ok, prob_pure]
    rw [Finset.sum_congr rfl this, Finset.sum_ite_eq', if_pos (show i ∈ Finset.Ico (s.bound p.len) p.len from Finset.mem_Ico.2 ⟨h1, h2⟩)]
    rfl
  · intro i r h1 hr
    unfold ElitistSelection.select at hr
    rw [yields_bind_ok] at hr
    obtain ⟨j, hj, hr⟩ := hr
    rcases (yields_rangeExcl _ _ _).1 hj with ⟨_, h⟩ | ⟨j', hj1, _, h⟩
    · cases h
    · cases h
      have := (memberAt_eq_ok hr.symm).1
      omega

/-- **C41** The documentation of `SelectionStrategy::Elitist` says that the ratio "determines the proportion of
individuals to be selected" from the best ones. It is the proportion that is *excluded*: with ratio 0.1 on ten
individuals, index 1 (the second worst) can be selected. -/
theorem C41_documentation_counterexample (p : Population I) (hp : p.individuals.length = 10) :
    ∃ x, ((⟨F64.lit (1 / 10)⟩ : ElitistSelection).select p).yields (.ok (1, x)) := by
  have hb : (⟨F64.lit (1 / 10)⟩ : ElitistSelection).bound 10 = 1 := by decide +kernel
  have hlen : p.len = 10 := hp
  refine ⟨p.individuals[1], ?_⟩
  unfold ElitistSelection.select
  rw [yields_bind_ok, hlen, hb]
  exact ⟨1, (yields_rangeExcl _ _ _).2 (Or.inr ⟨1, by omega, by omega, rfl⟩), by rw [memberAt_ok (by omega)]; rfl⟩

example : ((⟨F64.lit (1 / 2)⟩ : ElitistSelection).bound 5) = 2 := by decide +kernel

/-! ### C42 -/

/-- **C42** (exact arithmetic, which draws) With non-negative weights and `u` below 1, index `i` is chosen exactly when
`u * total` is above the sum of the earlier weights (if there are any) and at most the sum including weight `i`. -/
theorem C42_draws {K : Type} [Field K] [LinearOrder K] [IsStrictOrderedRing K] (ws : List K) (hw : ∀ w ∈ ws, 0 ≤ w)
    (hne : ws ≠ []) (u : K) (hu : u ≤ 1) (i : Nat) :
    wheelIndex ws ws.sum u = .ok i ↔
      i < ws.length ∧ (i = 0 ∨ (ws.take i).sum < u * ws.sum) ∧ u * ws.sum ≤ (ws.take (i + 1)).sum :=
  wheelIndex_exact ws hw hne u hu i

/-- **C42** (exact arithmetic, probability) The probability of index `i` is within `2^-53` of `w_i / total`. -/
theorem C42_probability (ws : List ℚ) (hw : ∀ w ∈ ws, 0 ≤ w) (hpos : 0 < ws.sum) (i : Nat) (hi : i < ws.length) :
    |(exactWheel ws).prob (fun j => j = i) - ws[i] / ws.sum| ≤ 1 / 2 ^ 53 :=
  exactWheel_prob ws hw hpos i hi

example : |(exactWheel [1, 2, 3, 4, 10]).prob (fun j => j = 4) - 1 / 2| ≤ 1 / 2 ^ 53 := by
  have := C42_probability [1, 2, 3, 4, 10] (by simp) (by norm_num) 4 (by simp)
  norm_num at this ⊢
  exact this

/-- **C42** (what the code does, `f64`) Roulette selection returns the first index whose running `f64` sum of fitness
values reaches `u * total`, or the last index if none does. -/
theorem C42_f64_wheel (s : RouletteWheelSelection) (p : Population I) (hp : p.individuals ≠ []) (r : Res (Nat × I)) :
    (s.select p).yields r ↔ ∃ k j x, k < 2 ^ 53 ∧ r = .ok (j, x) ∧ p.individuals[j]? = some x ∧
      WheelPick (p.individuals.map fitness) ((F64.unit k).mul s.totalFitness) j := by
  unfold RouletteWheelSelection.select
  rw [yields_bind]
  simp only [yields_genF64]
  have hne : p.individuals.map fitness ≠ [] := by simpa using hp
  constructor
  · rintro (⟨u, ⟨k, hk, hu⟩, h⟩ | ⟨⟨_, _, h⟩, _⟩ | ⟨⟨_, _, h⟩, _⟩)
    · cases hu
      obtain ⟨j, hj, hpick⟩ := wheelIndex_spec (p.individuals.map fitness) s.totalFitness (F64.unit k) hne
      rw [hj, Prog.lift_ok, Prog.bind_pure_left] at h
      have hjl : j < p.len := by simpa [Population.len] using hpick.1
      rw [memberAt_ok hjl] at h
      exact ⟨k, j, _, hk, h, List.getElem?_eq_getElem hjl, hpick⟩
    · cases h
    · cases h
  · rintro ⟨k, j, x, hk, rfl, hx, hpick⟩
    refine Or.inl ⟨F64.unit k, ⟨k, hk, rfl⟩, ?_⟩
    rw [(wheelIndex_iff _ _ _ hne j).2 hpick, Prog.lift_ok, Prog.bind_pure_left]
    have hjl : j < p.len := by simpa [Population.len] using hpick.1
    rw [memberAt_ok hjl, ← List.getElem?_eq_getElem hjl |>.symm.trans hx |> Option.some.inj]
    rfl

/-- **C42** (`f64`) With non-negative fitness values and a positive target, an individual of zero fitness is chosen only
if it is the last one and rounding left the target unreached by every running sum. -/
theorem C42_f64_zero_fitness (ws : List F64) (hw : ∀ w ∈ ws, F64.zero.le w = true) (target : F64)
    (ht : F64.zero.lt target = true) (j : Nat) (hj : WheelPick ws target j) (w : F64) (hwj : ws[j]? = some w)
    (h0 : w.feq F64.zero = true) :
    j + 1 = ws.length ∧ ∀ m, m < ws.length → target.le (runningSum F64.zero ws m) = false :=
  wheelPick_zero ws hw target ht j hj w hwj h0

/-- **C42** (`f64`) `prepare` computes a total that is not NaN and not negative if no fitness value is, in whatever order
the parallel sum adds. -/
theorem C42_total_nonneg (env : NumEnv) (henv : env.LawfulSum) (s : RouletteWheelSelection) (p : Population I)
    (hw : ∀ x ∈ p.individuals, F64.zero.le (fitness x) = true) :
    F64.zero.le (s.prepare env p).totalFitness = true :=
  treeSum_nonneg (henv _) (by simpa using hw)

/-- **C42** (`f64`) Draw 0 always selects the first individual, also one of zero fitness (if total and first fitness are
finite and non-negative): the target is zero and is reached at once. -/
theorem C42_f64_draw_zero (w total : F64) (ws : List F64) (hw : w.isFinite = true) (hw0 : 0 ≤ w.val)
    (ht : total.isFinite = true) : WheelPick (w :: ws) ((F64.unit 0).mul total) 0 :=
  wheelPick_draw_zero w total ws hw hw0 ht

/-! ### C43 -/

/-- **C43** In exact arithmetic, after any sequence of `prepare` calls (one per element of `fss`, the fitness values of
the successive populations), the temperature is `T * c^k` and the cooling rate is unchanged, whatever `exp` and the sum
order. -/
theorem C43_cooling {K : Type} [Field K] [LinearOrder K] (exp : K → K) (sum : List K → K) (s : BoltzmannSelection K)
    (fss : List (List K)) :
    (fss.foldl (BoltzmannSelection.prepareWith exp sum) s).temperature = s.temperature * s.coolingRate ^ fss.length ∧
    (fss.foldl (BoltzmannSelection.prepareWith exp sum) s).coolingRate = s.coolingRate := by
  induction fss generalizing s with
  | nil => simp
  | cons fs fss ih =>
    rw [List.foldl_cons]
    obtain ⟨h1, h2⟩ := ih (s.prepareWith exp sum fs)
    refine ⟨?_, h2⟩
    rw [h1]
    show s.temperature * s.coolingRate * s.coolingRate ^ fss.length = _
    rw [List.length_cons, pow_succ]; ring

/-- **C43** In `f64` too `prepare` multiplies the temperature by the cooling rate (rounded), never changes the cooling
rate, and sets the total to the sum of the scaled fitness values at the *new* temperature. -/
theorem C43_prepare (env : NumEnv) (s : BoltzmannSelection F64) (p : Population I) :
    (s.prepare env p).temperature = s.temperature.mul s.coolingRate ∧ (s.prepare env p).coolingRate = s.coolingRate ∧
    (s.prepare env p).totalScaledFitness =
      env.parSum (p.individuals.map fun i => env.exp ((fitness i).div (s.temperature.mul s.coolingRate))) := by
  refine ⟨rfl, rfl, ?_⟩
  unfold BoltzmannSelection.prepare BoltzmannSelection.prepareWith
  simp only [List.map_map]
  rfl

/-- **C43** The selected index is the first whose cumulative `exp(fitness/T)` reaches `u * total`, the last one if none
does. -/
theorem C43_select (env : NumEnv) (s : BoltzmannSelection F64) (p : Population I) (hp : p.individuals ≠ [])
    (r : Res (Nat × I)) :
    (s.select env p).yields r ↔ ∃ k j x, k < 2 ^ 53 ∧ r = .ok (j, x) ∧ p.individuals[j]? = some x ∧
      WheelPick (p.individuals.map fun i => env.exp ((fitness i).div s.temperature))
        ((F64.unit k).mul s.totalScaledFitness) j := by
  have e : (p.individuals.map fitness).map (BoltzmannSelection.scaledFitness env.exp s.temperature) =
      p.individuals.map fun i => env.exp ((fitness i).div s.temperature) := by rw [List.map_map]; rfl
  unfold BoltzmannSelection.select BoltzmannSelection.selectIndex
  rw [yields_bind, e]
  simp only [yields_genF64]
  have hne : (p.individuals.map fun i => env.exp ((fitness i).div s.temperature)) ≠ [] := by simpa using hp
  constructor
  · rintro (⟨u, ⟨k, hk, hu⟩, h⟩ | ⟨⟨_, _, h⟩, _⟩ | ⟨⟨_, _, h⟩, _⟩)
    · cases hu
      obtain ⟨j, hj, hpick⟩ := wheelIndex_spec _ s.totalScaledFitness (F64.unit k) hne
      rw [hj, Prog.lift_ok, Prog.bind_pure_left] at h
      have hjl : j < p.len := by simpa [Population.len] using hpick.1
      rw [memberAt_ok hjl] at h
      exact ⟨k, j, _, hk, h, List.getElem?_eq_getElem hjl, hpick⟩
    · cases h
    · cases h
  · rintro ⟨k, j, x, hk, rfl, hx, hpick⟩
    refine Or.inl ⟨F64.unit k, ⟨k, hk, rfl⟩, ?_⟩
    rw [(wheelIndex_iff _ _ _ hne j).2 hpick, Prog.lift_ok, Prog.bind_pure_left]
    have hjl : j < p.len := by simpa [Population.len] using hpick.1
    rw [memberAt_ok hjl, ← List.getElem?_eq_getElem hjl |>.symm.trans hx |> Option.some.inj]
    rfl

example : ((List.replicate 3 [(1 : ℚ), 2]).foldl (BoltzmannSelection.prepareWith id List.sum) ⟨8, 1 / 2, 0⟩).temperature
    = 1 := by rw [(C43_cooling _ _ _ _).1]; norm_num

/-! ### C45 -/

/-- **C45** If every selection returns a member of the population, `select_distinct` does not panic, and returns either
`None` or a member, with its index, that is `!=` the excluded individual. -/
theorem C45_distinct (p : Population I) (select : Prog (Nat × I)) (hs : Always (IsMember p) select) (ex : I)
    (maxTries : Nat) :
    Always (fun r => ∀ c, r = some c → IsMember p c ∧ Individual.eq c.2 ex = false)
      (selectDistinct select ex maxTries) :=
  selectDistinct_always hs ex maxTries

/-- **C45** Whatever `select` does: a returned individual is an outcome of `select` that is `!=` the excluded one. -/
theorem C45_never_excluded (select : Prog (Nat × I)) (ex : I) (maxTries : Nat) (c : Nat × I)
    (h : (selectDistinct select ex maxTries).yields (.ok (some c))) :
    Individual.eq c.2 ex = false ∧ select.yields (.ok c) :=
  selectDistinct_some select ex maxTries c h

/-- `select_distinct`'s loop, with a record of the candidates it looked at (specification only). -/
inductive Attempts (select : Prog (Nat × I)) (ex : I) : List (Nat × I) → Option (Nat × I) → Nat → Prop
  | stop : Attempts select ex [] none 0
  | found {c : Nat × I} {n : Nat} : select.yields (.ok c) → Individual.eq c.2 ex = false →
      Attempts select ex [c] (some c) (n + 1)
  | again {c : Nat × I} {l : List (Nat × I)} {r : Option (Nat × I)} {n : Nat} : select.yields (.ok c) →
      Individual.eq c.2 ex = true → Attempts select ex l r n → Attempts select ex (c :: l) r (n + 1)

/-- **C45** The possible results are exactly those of a loop that looks at candidates until one differs: `None` comes
after exactly `max_tries` selections, all of which compared equal to the excluded individual; a result comes after at most
`max_tries` selections, all but the last of which compared equal. -/
theorem C45_attempts (select : Prog (Nat × I)) (ex : I) (maxTries : Nat) (r : Option (Nat × I)) :
    ((selectDistinct select ex maxTries).yields (.ok r) ↔ ∃ l, Attempts select ex l r maxTries) ∧
    ∀ l, Attempts select ex l r maxTries →
      l.length ≤ maxTries ∧ (∀ c ∈ l, select.yields (.ok c)) ∧
      (r = none → l.length = maxTries ∧ ∀ c ∈ l, Individual.eq c.2 ex = true) ∧
      (∀ c, r = some c → ∃ l', l = l' ++ [c] ∧ (∀ c ∈ l', Individual.eq c.2 ex = true) ∧
        Individual.eq c.2 ex = false) := by
  constructor
  · induction maxTries with
    | zero =>
      constructor
      · intro h; cases h; exact ⟨[], .stop⟩
      · rintro ⟨l, h⟩; cases h; rfl
    | succ n ih =>
      rw [selectDistinct_succ, yields_bind_ok]
      constructor
      · rintro ⟨c, hc, h⟩
        split at h
        · rename_i he
          cases h
          exact ⟨[c], .found hc he⟩
        · rename_i he
          obtain ⟨l, hl⟩ := ih.1 h
          exact ⟨c :: l, .again hc (by simpa using he) hl⟩
      · rintro ⟨l, h⟩
        cases h with
        | found hc he => exact ⟨_, hc, by rw [if_pos he]; rfl⟩
        | again hc he h => exact ⟨_, hc, by rw [if_neg (by simp [he])]; exact ih.2 ⟨_, h⟩⟩
  · intro l h
    induction h with
    | stop => exact ⟨le_refl _, by simp, by simp, by simp⟩
    | found hc he =>
      refine ⟨by simp, by simpa using hc, by simp, ?_⟩
      rintro c h; cases h
      exact ⟨[], rfl, by simp, he⟩
    | again hc he h ih =>
      obtain ⟨h1, h2, h3, h4⟩ := ih
      refine ⟨by simp; omega, ?_, ?_, ?_⟩
      · intro c hc'
        rcases List.mem_cons.1 hc' with rfl | hc'
        · exact hc
        · exact h2 c hc'
      · intro hr
        obtain ⟨h5, h6⟩ := h3 hr
        refine ⟨by simp [h5], ?_⟩
        intro c hc'
        rcases List.mem_cons.1 hc' with rfl | hc'
        · exact he
        · exact h6 c hc'
      · intro c hr
        obtain ⟨l', rfl, h5, h6⟩ := h4 c hr
        refine ⟨_ :: l', rfl, ?_, h6⟩
        intro c' hc'
        rcases List.mem_cons.1 hc' with rfl | hc'
        · exact he
        · exact h5 c' hc'

/-- **C45** (probability) If a selection always succeeds and compares equal to the excluded individual with probability
`q`, then `select_distinct` gives up with probability `q^max_tries`. -/
theorem C45_give_up_probability (select : Prog (Nat × I)) (ex : I) (maxTries : Nat) :
    (selectDistinct select ex maxTries).prob (fun r => r = none) =
      (select.prob fun c => Individual.eq c.2 ex = true) ^ maxTries := by
  induction maxTries with
  | zero => simp [selectDistinct]
  | succ n ih =>
    rw [selectDistinct_succ, prob_bind_mul _ _ _ (fun c => Individual.eq c.2 ex = true)
      ((select.prob fun c => Individual.eq c.2 ex = true) ^ n), pow_succ, mul_comm]
    · intro c _ hc
      rw [if_neg (by simp [hc])]
      exact ih
    · intro c _ hc
      rw [if_pos (by simpa using hc)]
      simp

example : (selectDistinct (rankSelect exPop) (F64.ofNat 10) 3).prob (fun r => r = none) = (1 / 3) ^ 3 := by
  rw [C45_give_up_probability]
  congr 1
  have h := C40_probability exPop (by decide) 4 (by decide)
  have h' : (rankSelect exPop).prob (fun c => Individual.eq c.2 (F64.ofNat 10) = true) =
      (rankSelect exPop).prob (fun r => r.1 = 4) := by
    refine prob_congr _ _ _ fun c hc => ?_
    have hm := (C38_member ⟨id, fun _ => F64.zero⟩ exPop (by decide) (by decide) .rank trivial (by simp)
      (fun _ => by decide)).partially c hc
    obtain ⟨i, x⟩ := c
    obtain ⟨h1, h2⟩ := hm
    have h1' : i < 5 := h1
    simp only at h2 ⊢
    interval_cases i <;> cases h2 <;> decide +kernel
  rw [h', h]
  norm_num [exPop]

/-! ### C46 -/

/-- **C46** `TournamentSelection::new` and `set_size` panic exactly for 0. -/
theorem C46_tournament (s : TournamentSelection) (size : Nat) :
    (TournamentSelection.new size = if size = 0 then .panic else .ok ⟨size⟩) ∧
    (s.setSize size = if size = 0 then .panic else .ok ⟨size⟩) := by
  constructor <;> by_cases h : size = 0 <;> simp [TournamentSelection.new, TournamentSelection.setSize, h]

/-- **C46** `BoltzmannSelection::new` and `set_cooling_rate` panic exactly for the two zeros (NaN is accepted). -/
theorem C46_boltzmann (s : BoltzmannSelection F64) (t c : F64) :
    (BoltzmannSelection.new t c =
      if c = F64.zero ∨ c = F64.nzero then .panic else .ok ⟨t, c, F64.zero⟩) ∧
    (s.setCoolingRate c = if c = F64.zero ∨ c = F64.nzero then .panic else .ok { s with coolingRate := c }) := by
  have h := feq_zero_iff c
  by_cases hc : c = F64.zero ∨ c = F64.nzero
  · rw [if_pos hc, if_pos hc]
    rw [← h] at hc
    simp [BoltzmannSelection.new, BoltzmannSelection.setCoolingRate, hc]
  · rw [if_neg hc, if_neg hc]
    rw [← h] at hc
    simp [BoltzmannSelection.new, BoltzmannSelection.setCoolingRate, hc]

/-- **C46** `ElitistSelection::new` and `set_ratio` panic exactly outside `[0,1)` (NaN included). -/
theorem C46_elitist (s : ElitistSelection) (r : F64) :
    ((r.isFinite = true ∧ 0 ≤ r.val ∧ r.val < 1) → ElitistSelection.new r = .ok ⟨r⟩ ∧ s.setRatio r = .ok ⟨r⟩) ∧
    (¬ (r.isFinite = true ∧ 0 ≤ r.val ∧ r.val < 1) → ElitistSelection.new r = .panic ∧ s.setRatio r = .panic) := by
  rw [← inHalfOpenUnit_iff]
  constructor
  · intro h; simp [ElitistSelection.new, ElitistSelection.setRatio, h]
  · intro h
    simp only [Bool.not_eq_true] at h
    simp [ElitistSelection.new, ElitistSelection.setRatio, h]

/-- **C46** `create_selector` panics exactly when the strategy's parameter is out of range; otherwise the selector is in
range. -/
theorem C46_create (st : SelectionStrategy) :
    (∃ s, st.createSelector = .ok s ∧ s.InRange) ∨
    (st.createSelector = .panic ∧
      match st with
      | .tournament size => size = 0
      | .boltzmann _ c => c = F64.zero ∨ c = F64.nzero
      | .elitist r => ¬ (r.isFinite = true ∧ 0 ≤ r.val ∧ r.val < 1)
      | _ => False) := by
  cases st with
  | tournament size =>
    have := (C46_tournament ⟨0⟩ size).1
    by_cases h : size = 0
    · right; rw [if_pos h] at this; exact ⟨by simp [SelectionStrategy.createSelector, this], h⟩
    · left; exact ⟨.tournament ⟨size⟩, by simp [SelectionStrategy.createSelector, this, h], h⟩
  | rouletteWheel => exact Or.inl ⟨_, rfl, trivial⟩
  | boltzmann t c =>
    have := (C46_boltzmann ⟨t, c, c⟩ t c).1
    by_cases h : c = F64.zero ∨ c = F64.nzero
    · right; rw [if_pos h] at this; exact ⟨by simp [SelectionStrategy.createSelector, this], h⟩
    · left; rw [if_neg h] at this
      refine ⟨.boltzmann ⟨t, c, F64.zero⟩, by simp [SelectionStrategy.createSelector, this], ?_⟩
      rw [← feq_zero_iff] at h
      simpa [Selector.InRange] using h
  | rank => exact Or.inl ⟨_, rfl, trivial⟩
  | linear b => exact Or.inl ⟨_, rfl, trivial⟩
  | elitist r =>
    have := C46_elitist ⟨r⟩ r
    by_cases h : r.isFinite = true ∧ 0 ≤ r.val ∧ r.val < 1
    · left; exact ⟨.elitist ⟨r⟩, by simp [SelectionStrategy.createSelector, (this.1 h).1], h⟩
    · right; exact ⟨by simp [SelectionStrategy.createSelector, (this.2 h).1], h⟩

/-- A successful call of one of the public setters, or of `prepare`. -/
inductive SetterStep (env : NumEnv) : Selector → Selector → Prop
  | size {s s' : TournamentSelection} {n : Nat} : s.setSize n = .ok s' → SetterStep env (.tournament s) (.tournament s')
  | temperature {s : BoltzmannSelection F64} {t : F64} : SetterStep env (.boltzmann s) (.boltzmann (s.setTemperature t))
  | cooling {s s' : BoltzmannSelection F64} {c : F64} : s.setCoolingRate c = .ok s' →
      SetterStep env (.boltzmann s) (.boltzmann s')
  | ratio {s s' : ElitistSelection} {r : F64} : s.setRatio r = .ok s' → SetterStep env (.elitist s) (.elitist s')
  | bias {s : LinearSelection F64} {b : F64} : SetterStep env (.linear s) (.linear ⟨b⟩)
  | prepare {s : Selector} {p : Population I} : SetterStep env s (s.prepare env p)

/-- **C46** After any sequence of successful setter and `prepare` calls the parameters are still in range. -/
theorem C46_history (env : NumEnv) (st : SelectionStrategy) (s s' : Selector) (h : st.createSelector = .ok s)
    (hs : Relation.ReflTransGen (SetterStep (I := I) env) s s') : s'.InRange := by
  have h0 : s.InRange := by
    rcases C46_create st with ⟨s0, h1, h2⟩ | ⟨h1, _⟩
    · rw [h] at h1; cases h1; exact h2
    · rw [h] at h1; cases h1
  have step : ∀ a b, SetterStep (I := I) env a b → a.InRange → b.InRange := by
    intro a b h ih
    cases h with
    | @size s s' n h1 =>
      rw [(C46_tournament _ n).2] at h1
      split at h1
      · cases h1
      · rename_i hn; cases h1; exact hn
    | temperature => exact ih
    | @cooling s s' c h1 =>
      rw [(C46_boltzmann _ F64.zero c).2] at h1
      split at h1
      · cases h1
      · rename_i hc; cases h1
        rw [← feq_zero_iff] at hc
        simpa [Selector.InRange] using hc
    | @ratio s s' r h1 =>
      have := C46_elitist s r
      by_cases h : r.isFinite = true ∧ 0 ≤ r.val ∧ r.val < 1
      · rw [(this.1 h).2] at h1; cases h1; exact h
      · rw [(this.2 h).2] at h1; cases h1
    | bias => trivial
    | prepare => cases a <;> exact ih
  induction hs with
  | refl => exact h0
  | tail _ hstep ih => exact step _ _ hstep ih

example : (SelectionStrategy.tournament 0).createSelector = .panic := by decide
example : (SelectionStrategy.elitist F64.one).createSelector = .panic := by decide +kernel
example : (SelectionStrategy.elitist (F64.lit (1 / 4))).createSelector = .ok (.elitist ⟨F64.lit (1 / 4)⟩) := by
  decide +kernel

end RG.Props
