import Verif.Props.CloneRate

/-!
# C141 — Crossover when one individual dominates
-/

namespace RG.Props
open RG RG.Prog Arith
variable {I Mo U : Type} [Individual I]

/-- **C141** With the roulette wheel, the crossover method matters at most four times the share of the total fitness that does not belong to the
individual `i`, up to rounding. -/
theorem C141_dominant (M : EvoOps I Mo U) (other : Mo → I → I → Prog I) (env : NumEnv) (henv : env.LawfulSum) (model : Mo) (p : Population I)
    (r : ReproParams U) (s : RouletteWheelSelection) (hs : r.parentSelector = .builtin (.rouletteWheel (s.prepare env p)))
    (hw : FairWeights (p.individuals.map fitness)) (i : Nat) (hi : i < p.individuals.length)
    (hx : Individual.eq p.individuals[i] p.individuals[i] = true) (g : Res I → ℚ) (hg : ∀ r, 0 ≤ g r ∧ g r ≤ 1) :
    |(defaultBreed M env model p r).expect g - (defaultBreed { M with crossover := other } env model p r).expect g| ≤
      4 * (1 - (fitness p.individuals[i]).val / (p.individuals.map fun x => (fitness x).val).sum + p.individuals.length / 2 ^ 49) := by
  have hne : p.individuals ≠ [] := by rintro h; simp [h] at hi
  refine (C141_breed M other env model p r _ hs i _ hx (fun c hc hj => ?_) g hg).trans ?_
  · obtain ⟨k, j, y, -, e, hy, -⟩ := (C42_f64_wheel _ p hne _).1 hc
    cases e
    rw [show j = i from hj, List.getElem?_eq_getElem hi] at hy
    exact (Option.some.inj hy).symm
  · have h := (abs_le.1 (C42_f64_probability env henv s p hw i hi)).1
    have e : ((Selector.rouletteWheel (s.prepare env p)).select env p).prob (fun c => c.1 = i) =
      ((s.prepare env p).select p).prob (fun r => r.1 = i) := rfl
    rw [e]
    linarith

/-- **C141** With tournaments of `k` out of `n` individuals, equal ones among them or not, at most `4 (1 - 1/n)^k`. -/
theorem C141_tournament (M : EvoOps I Mo U) (other : Mo → I → I → Prog I) (env : NumEnv) (model : Mo) (p : Population I) (hp : p.individuals ≠ [])
    (hn : p.individuals.length ≤ 2 ^ 53) (r : ReproParams U) (s : TournamentSelection) (h0 : s.size ≠ 0)
    (hs : r.parentSelector = .builtin (.tournament s)) (hx : Individual.eq (p.individuals.getLast hp) (p.individuals.getLast hp) = true)
    (g : Res I → ℚ) (hg : ∀ r, 0 ≤ g r ∧ g r ≤ 1) :
    |(defaultBreed M env model p r).expect g - (defaultBreed { M with crossover := other } env model p r).expect g| ≤
      4 * (1 - 1 / (p.individuals.length : ℚ)) ^ s.size := by
  have hlen : 0 < p.individuals.length := List.length_pos_of_ne_nil hp
  have hpos : (0 : ℚ) < p.individuals.length := by exact_mod_cast hlen
  have ht : Always (IsMember p) ((Selector.tournament s).select env p) := C38_member env p hp hn _ h0 (by simp) (by simp)
  refine (C141_breed M other env model p r _ hs (p.individuals.length - 1) _ hx (fun c hc hj => ?_) g hg).trans (le_of_eq ?_)
  · obtain ⟨d, e, hd⟩ := ht _ hc
    cases e
    have h := hd.2
    rw [hj, ← List.getLast?_eq_getElem?, List.getLast?_eq_some_getLast hp] at h
    exact (Option.some.inj h).symm
  · have hlast : ((Selector.tournament s).select env p).prob (fun c => c.1 = p.individuals.length - 1) =
        1 - (1 - 1 / (p.individuals.length : ℚ)) ^ s.size := by
      refine (C39_probability s h0 p (p.individuals.length - 1) (by omega)).trans ?_
      have e : ((p.individuals.length - 1 : Nat) : ℚ) = (p.individuals.length : ℚ) - 1 := by rw [Nat.cast_sub hlen]; norm_num
      rw [e, sub_add_cancel, sub_div, ← div_pow, ← div_pow, div_self hpos.ne', one_pow, sub_div, div_self hpos.ne']
    rw [hlast]
    ring

/-! ### Example -/

/-- Tournaments of 40 out of three numbers: crossover matters less than one in a million. -/
example (env : NumEnv) (other : Unit → Num → Num → Prog Num) (r : ReproParams Empty) (hs : r.parentSelector = .builtin (.tournament ⟨40⟩))
    (g : Res Num → ℚ) (hg : ∀ r, 0 ≤ g r ∧ g r ≤ 1) :
    |(defaultBreed numOps env () numPop r).expect g - (defaultBreed { numOps with crossover := other } env () numPop r).expect g| ≤ 1 / 1000000 := by
  refine (C141_tournament numOps other env () numPop (by decide) (by decide) r ⟨40⟩ (by decide) hs (by decide +kernel) g hg).trans ?_
  norm_num [numPop]

end RG.Props
