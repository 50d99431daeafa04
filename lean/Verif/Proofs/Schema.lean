import Verif.Proofs.CrossLadder
import Verif.Props.Distribution
import Verif.SpecSchema

/-!
# Lemmas for the schema theorem
-/

set_option linter.unusedSectionVars false

namespace RG
open Prog
variable {I : Type} [Individual I] {Mo U G : Type}

namespace Schema

variable [DecidableEq G] (H : Schema G)

theorem prob_spx (lt : G → G → Bool) (ord : Nat → List G → List G) (fuel : Nat) (p q : List G) (hne : p ≠ [])
    (hlen : p.length = q.length) :
    (CrossoverStrategy.singlePoint.crossover lt ord fuel p q).prob H.Matches =
      ((Finset.range p.length).filter fun point => H.Matches (p.take point ++ q.drop point)).card / p.length := by
  unfold prob
  rw [Props.C66_spx lt ord fuel p q hne]
  congr 1
  rw [Finset.card_filter]
  push_cast
  refine Finset.sum_congr rfl fun point _ => ?_
  rw [Props.C28_spx p q hlen]

theorem get_spx (p q : List G) (hlen : p.length = q.length) (point i : Nat) :
    (p.take point ++ q.drop point)[i]? = if i < point then p[i]? else q[i]? := by
  obtain ⟨off, h, -, hp⟩ := Props.C28_positions p q hlen point
  rw [Props.C28_spx p q hlen] at h
  cases h
  exact hp i

variable {H} {first last : Nat}

theorem matches_left (hH : H.Within first last) {p q : List G} (hlen : p.length = q.length) (hp : H.Matches p) {point : Nat}
    (h : last < point) : H.Matches (p.take point ++ q.drop point) := by
  intro x hx
  rw [get_spx p q hlen, if_pos (lt_of_le_of_lt (hH x hx).2 h)]
  exact hp x hx

theorem matches_right (hH : H.Within first last) {p q : List G} (hlen : p.length = q.length) (hq : H.Matches q) {point : Nat}
    (h : point ≤ first) : H.Matches (p.take point ++ q.drop point) := by
  intro x hx
  rw [get_spx p q hlen, if_neg (not_lt.2 (h.trans (hH x hx).1))]
  exact hq x hx

theorem matches_both {p q : List G} (hlen : p.length = q.length) (hp : H.Matches p) (hq : H.Matches q) (point : Nat) :
    H.Matches (p.take point ++ q.drop point) := by
  intro x hx
  rw [get_spx p q hlen]
  split
  · exact hp x hx
  · exact hq x hx

/-- The chance that a copy of a gene over another keeps a match. -/
theorem prob_duplicate (g : List G) (hn : 2 ≤ g.length) (hH : ∀ x ∈ H, x.1 < g.length) (hg : H.Matches g) :
    1 - (H.order : ℚ) / g.length ≤ (duplicateMutation g).prob H.Matches := by
  obtain ⟨cp, hcp, he⟩ := Props.C66_duplicate g hn fun r => match r with
    | .ok a => if H.Matches a then 1 else 0
    | _ => 0
  have he' : (duplicateMutation g).prob H.Matches = Props.pairAverage g.length fun a b => if H.Matches (cp a b) then 1 else 0 := by
    unfold prob
    refine (expect_congr _ _ _ fun r _ => ?_).trans he
    cases r <;> rfl
  rw [he']
  unfold Props.pairAverage
  set n := g.length with hn'
  set F := (H.map Prod.fst).toFinset with hF
  have hFn : F ⊆ Finset.range n := by
    intro i hi
    rw [hF, List.mem_toFinset, List.mem_map] at hi
    obtain ⟨x, hx, rfl⟩ := hi
    exact Finset.mem_range.2 (hH x hx)
  have h1 : (1 : ℚ) ≤ n := by exact_mod_cast (by omega : 1 ≤ n)
  have h2 : (2 : ℚ) ≤ n := by exact_mod_cast hn
  have hpos : (0 : ℚ) < n * (n - 1) := mul_pos (by linarith) (by linarith)
  rw [le_div_iff₀ hpos]
  have key : ∀ a ∈ Finset.range n, ∀ b ∈ (Finset.range n).erase a, (1 : ℚ) - (if b ∈ F then 1 else 0) ≤ if H.Matches (cp a b) then 1 else 0 := by
    intro a ha b hb
    rw [Finset.mem_erase, Finset.mem_range] at hb
    by_cases hbF : b ∈ F
    · rw [if_pos hbF]; split <;> norm_num
    · rw [if_neg hbF, if_pos, sub_zero]
      intro x hx
      have hxb : x.1 ≠ b := by
        rintro rfl
        exact hbF (List.mem_toFinset.2 (List.mem_map_of_mem hx))
      have hc := hcp a b (Finset.mem_range.1 ha) hb.2 hb.1.symm
      have e : cp a b = g.set b (g[a]'(Finset.mem_range.1 ha)) := (Props.copiedOver_iff g _ a b hb.1.symm (Finset.mem_range.1 ha) hb.2).1 hc
      rw [e, List.getElem?_set_ne hxb.symm]
      exact hg x hx
  refine le_trans (le_of_eq ?_) (Finset.sum_le_sum fun a ha => Finset.sum_le_sum fun b hb => key a ha b hb)
  have hin : ∀ a ∈ Finset.range n, ∑ b ∈ (Finset.range n).erase a, ((1 : ℚ) - (if b ∈ F then 1 else 0)) =
      (n - 1 : ℚ) - (F.card - if a ∈ F then 1 else 0) := by
    intro a ha
    rw [Finset.sum_sub_distrib]
    congr 1
    · rw [Finset.sum_const, Finset.card_erase_of_mem ha, Finset.card_range, nsmul_eq_mul, mul_one, Nat.cast_sub (by omega), Nat.cast_one]
    · rw [Finset.sum_erase_eq_sub ha]
      congr 1
      rw [← Finset.sum_filter, Finset.sum_const, nsmul_eq_mul, mul_one]
      congr 2
      ext b
      rw [Finset.mem_filter]
      exact ⟨fun h => h.2, fun h => ⟨hFn h, h⟩⟩
  rw [Finset.sum_congr rfl hin, Finset.sum_sub_distrib, Finset.sum_sub_distrib, Finset.sum_sub_distrib, Finset.sum_const, Finset.sum_const,
    Finset.sum_const, Finset.card_range,
    ← Finset.sum_filter, Finset.sum_const, show (Finset.range n).filter (fun a => a ∈ F) = F by
      ext b; rw [Finset.mem_filter]; exact ⟨fun h => h.2, fun h => ⟨hFn h, h⟩⟩]
  simp only [nsmul_eq_mul]
  unfold order
  rw [← hF]
  field_simp

end Schema

/-! ### Breeding -/

theorem expect_genF64_lt {β : Type} (r : F64) (f : Bool → Prog β) (g : Res β → ℚ) :
    (genF64 >>= fun u => f (u.lt r)).expect g = chance r * (f true).expect g + (1 - chance r) * (f false).expect g := by
  unfold chance
  have h1 : 1 - genF64.prob (fun u => u.lt r = true) = genF64.prob (fun u => ¬ u.lt r = true) := by
    have := prob_add_not_of_always genF64 (fun u => u.lt r = true) always_genF64_true
    linarith
  rw [h1, expect_bind, mul_comm, mul_comm (genF64.prob _) ((f false).expect g)]
  unfold prob
  rw [← expect_mul_left, ← expect_mul_left, ← expect_add]
  refine expect_congr _ _ _ fun x hx => ?_
  obtain ⟨k, -, rfl⟩ := (yields_genF64 _).1 hx
  cases h : (F64.unit k).lt r <;> simp [h]

theorem chance_nonneg (r : F64) : 0 ≤ chance r := prob_nonneg _ _
theorem chance_le_one (r : F64) : chance r ≤ 1 := prob_le_one _ _

theorem average_mul {α : Type} (p : Prog α) (c : ℚ) (f : α → ℚ) : p.average (fun a => c * f a) = c * p.average f := by
  unfold average
  rw [← expect_mul_left]
  exact expect_congr _ _ _ fun r _ => by cases r <;> simp

theorem average_le_bind {α β : Type} (p : Prog α) (k : α → Prog β) (f : α → ℚ) (P : β → Prop) [DecidablePred P]
    (h : ∀ a, p.yields (.ok a) → f a ≤ (k a).prob P) : p.average f ≤ (p >>= k).prob P := by
  unfold average prob
  rw [expect_bind]
  refine expect_mono p _ _ fun r hr => ?_
  cases r with
  | ok a => exact h a hr
  | panic => exact le_rfl
  | diverge => exact le_rfl

namespace Schema
variable [DecidableEq G] {H : Schema G} {first last : Nat}
variable {M : EvoOps I Mo U} {genome : I → List G} {model : Mo} {n : Nat} {lt : G → G → Bool} {ord : Nat → List G → List G} {fuel : Nat}

theorem prob_genome {p : Prog I} {q : Prog (List G)} (h : (p >>= fun c => pure (genome c)) = q) :
    p.prob (fun c => H.Matches (genome c)) = q.prob H.Matches := by
  rw [← h, prob_bind_pure _ _ genome (fun _ _ => rfl)]

theorem order_le (hH : H.Within first last) (hl : last < n) : H.order ≤ n := by
  unfold order
  refine le_trans (Finset.card_le_card (t := Finset.range n) fun i hi => ?_) (Finset.card_range n).le
  rw [List.mem_toFinset, List.mem_map] at hi
  obtain ⟨x, hx, rfl⟩ := hi
  exact Finset.mem_range.2 (lt_of_le_of_lt (hH x hx).2 hl)

theorem keep_nonneg (hH : H.Within first last) (hl : last < n) (r : F64) : 0 ≤ 1 - chance r * (H.order / n) := by
  have h1 : (H.order : ℚ) / n ≤ 1 := div_le_one_of_le₀ (Nat.cast_le.2 (order_le hH hl)) (Nat.cast_nonneg n)
  have h2 : chance r * (H.order / n) ≤ 1 * 1 := mul_le_mul (chance_le_one r) h1 (by positivity) (by norm_num)
  linarith

theorem average_breedParents (M : EvoOps I Mo U) (env : NumEnv) (p : Population I) (hp : 1 < p.individuals.length) (r : ReproParams U)
    (f : I × Option I → ℚ) : (breedParents M env p r).average f =
      (1 - chance r.crossoverRate) * (r.parentSelector.select env M.selectors p).average (fun x => f (x.2, none)) +
        chance r.crossoverRate * (twoParents M env p r).average f := by
  unfold average breedParents twoParents
  rw [expect_bind, expect_bind, ← expect_mul_left, ← expect_mul_left, ← expect_add]
  refine expect_congr _ _ _ fun x _ => ?_
  cases x with
  | ok x =>
    dsimp only
    rw [if_pos (show p.len > 1 from hp)]
    simp only [bind_assoc, Prog.bind_pure_left]
    rw [expect_genF64_lt r.crossoverRate (fun c => (if c = true then
      r.parentSelector.selectDistinct env M.selectors p 3 x.2 >>= fun r => pure (r.map Prod.snd) else pure none) >>= fun y =>
        pure (x.2, y))]
    rw [if_pos rfl, if_neg (by simp), bind_assoc, Prog.bind_pure_left, expect_pure, add_comm]
    simp only [Prog.bind_pure_left]
  | panic => simp
  | diverge => simp

theorem share_none (good : I → Prop) [DecidablePred good] (α β : ℚ) {J : Type} (q : Prog (J × I)) :
    q.average (fun x => share good α β (x.2, none)) = q.prob fun x => good x.2 := by
  unfold average prob
  exact expect_congr _ _ _ fun r _ => by cases r <;> rfl

theorem length_spx (p q : List G) (hlen : p.length = q.length) {o : List G}
    (h : (CrossoverStrategy.singlePoint.crossover lt ord fuel p q).yields (.ok o)) : o.length = p.length := by
  have h : (Prog.rangeExcl 0 p.length >>= fun point => Prog.lift (spx p q point)).yields (.ok o) := h
  obtain ⟨point, -, h⟩ := (yields_bind_ok _ _ _).1 h
  rw [Props.C28_spx p q hlen] at h
  cases h
  simp only [List.length_append, List.length_take, List.length_drop]
  omega

theorem start_length (hM : SchemaModel M genome model n lt ord fuel) {x : I} {y : Option I} (hx : (genome x).length = n)
    (hy : ∀ b, y = some b → (genome b).length = n) {o : I} (h : (breedStart M model x y).yields (.ok o)) : (genome o).length = n := by
  cases y with
  | none => cases (yields_pure _ _).1 h; exact hx
  | some b =>
    rw [← hx]
    refine length_spx (lt := lt) (ord := ord) (fuel := fuel) _ (genome b) (by rw [hx, hy b rfl]) ?_
    rw [← hM.crossover x b hx (hy b rfl)]
    exact (yields_bind_ok _ _ _).2 ⟨o, h, (yields_pure _ _).2 rfl⟩

theorem breedEnd_one (hM : SchemaModel M genome model n lt ord fuel) (p : Population I) (fp o : I)
    (hs : ∀ o, Always (fun b => b = true ∨ H.Matches (genome fp)) (M.canSurvive model o fp p)) (hn : (genome o).length = n)
    (ho : H.Matches (genome o)) : (breedEnd M model p fp o).prob (fun x => H.Matches (genome x)) = 1 := by
  refine prob_eq_one_of_always _ _ ?_
  unfold breedEnd
  refine (always_bind _ _ _).2 ((hM.improve o hn).mono fun o1 h1 => ?_)
  refine (always_bind _ _ _).2 ((hM.evaluate o1 (by rw [h1, hn])).mono fun o2 h2 => ?_)
  rw [if_pos h2.2]
  refine (always_bind _ _ _).2 ((hs o2).mono fun b hb => (always_pure _ _).2 ?_)
  split
  · rw [h2.1, h1]; exact ho
  · exact hb.resolve_left ‹_›

theorem length_duplicate (g : List G) {o : List G} (h : (MutationStrategy.duplicate.mutate g).yields (.ok o)) : o.length = g.length := by
  have h : (duplicateMutation g).yields (.ok o) := h
  unfold duplicateMutation at h
  dsimp only at h
  split at h
  · cases h; rfl
  · obtain ⟨⟨a, b⟩, -, h⟩ := (yields_bind_ok _ _ _).1 h
    obtain ⟨x, -, h⟩ := (yields_bind_ok _ _ _).1 h
    split at h
    · cases h; exact List.length_set
    · cases h

theorem mutate_length (hM : SchemaModel M genome model n lt ord fuel) {rate : F64} {o c : I} (hn : (genome o).length = n)
    (h : (breedMutate M model rate o).yields (.ok c)) : (genome c).length = n := by
  unfold breedMutate at h
  obtain ⟨u, -, h⟩ := (yields_bind_ok _ _ _).1 h
  split at h
  · rw [← hn]
    refine length_duplicate _ ?_
    rw [← hM.mutate o hn]
    exact (yields_bind_ok _ _ _).2 ⟨c, h, (yields_pure _ _).2 rfl⟩
  · cases h; exact hn

theorem mutate_le (hM : SchemaModel M genome model n lt ord fuel) (hH : H.Within first last) (hl : last < n) (rate : F64) (p : Population I)
    (fp o : I) (hs : ∀ o, Always (fun b => b = true ∨ H.Matches (genome fp)) (M.canSurvive model o fp p)) (hn : (genome o).length = n)
    (ho : H.Matches (genome o)) :
    1 - chance rate * (H.order / n) ≤
      (breedMutate M model rate o >>= fun o => breedEnd M model p fp o).prob (fun x => H.Matches (genome x)) := by
  refine le_trans ?_ (prob_le_bind _ _ (fun x => H.Matches (genome x)) _ fun a hy ha => breedEnd_one hM p fp a hs (mutate_length hM hn hy) ha)
  unfold prob breedMutate
  rw [expect_genF64_lt rate fun c => if c = true then M.mutate model o else pure o, if_pos rfl, if_neg (by simp), expect_pure]
  have h1 : 1 - (H.order : ℚ) / n ≤ (M.mutate model o).prob fun x => H.Matches (genome x) := by
    rw [prob_genome (hM.mutate o hn)]
    by_cases h2 : 2 ≤ (genome o).length
    · rw [← hn]
      exact Schema.prob_duplicate _ h2 (fun x hx => by rw [hn]; exact lt_of_le_of_lt (hH x hx).2 hl) ho
    · rw [show MutationStrategy.duplicate.mutate (genome o) = pure (genome o) by
        show duplicateMutation _ = _
        unfold duplicateMutation
        rw [if_pos (by omega)], prob_pure, if_pos ho]
      have : (0 : ℚ) ≤ (H.order : ℚ) / n := by positivity
      linarith
  have h2 := mul_le_mul_of_nonneg_left h1 (chance_nonneg rate)
  unfold prob at h2
  simp only [ho, if_true]
  linarith

theorem start_le (hM : SchemaModel M genome model n lt ord fuel) (ps : I × Option I) (f : I × Option I → ℚ)
    (h1 : f (ps.1, none) ≤ if H.Matches (genome ps.1) then 1 else 0)
    (h2 : ∀ y, ps.2 = some y → f (ps.1, some y) ≤ (CrossoverStrategy.singlePoint.crossover lt ord fuel (genome ps.1) (genome y)).prob H.Matches)
    (hx : (genome ps.1).length = n) (hy : ∀ b, ps.2 = some b → (genome b).length = n) :
    f ps ≤ (breedStart M model ps.1 ps.2).prob fun x => H.Matches (genome x) := by
  obtain ⟨x, y⟩ := ps
  cases y with
  | none =>
    refine h1.trans (le_of_eq ?_)
    show _ = (pure x : Prog I).prob _
    rw [prob_pure]
  | some y =>
    refine (h2 y rfl).trans (le_of_eq ?_)
    show _ = (M.crossover model x y).prob _
    rw [prob_genome (hM.crossover x y hx (hy y rfl))]

theorem breed_le (hM : SchemaModel M genome model n lt ord fuel) (hH : H.Within first last) (hl : last < n)
    (h1 : M.selectors.ReturnsMembers) (h2 : M.selectors.DistinctMembers) (env : NumEnv) (p : Population I) (hp : 1 < p.individuals.length)
    (hg : ∀ x ∈ p.individuals, (genome x).length = n) (r : ReproParams U) (f : I × Option I → ℚ)
    (hf : ∀ x ∈ p.individuals, ∀ y, (∀ b, y = some b → b ∈ p.individuals) →
      f (x, y) ≤ 0 ∨ (f (x, y) ≤ (breedStart M model x y).prob (fun x => H.Matches (genome x)) ∧
        ∀ o, Always (fun b => b = true ∨ H.Matches (genome (fitterParent x y))) (M.canSurvive model o (fitterParent x y) p))) :
    (1 - chance r.mutationRate * (H.order / n)) * ((1 - chance r.crossoverRate) *
        (r.parentSelector.select env M.selectors p).average (fun x => f (x.2, none)) +
          chance r.crossoverRate * (twoParents M env p r).average f) ≤
      (defaultBreed M env model p r).prob fun x => H.Matches (genome x) := by
  rw [defaultBreed_eq, ← average_breedParents M env p hp r, ← average_mul]
  refine average_le_bind _ _ _ _ fun ps hps => ?_
  obtain ⟨hx, hy⟩ := ((yields_breedParents M env p r ps.1 ps.2).1 hps).mem h1 h2
  have hk := keep_nonneg hH hl r.mutationRate
  rcases hf ps.1 hx ps.2 fun b hb => (hy b hb).1 with h0 | ⟨h0, hs⟩
  · exact (mul_nonpos_of_nonneg_of_nonpos hk h0).trans (prob_nonneg _ _)
  · refine le_trans (mul_le_mul_of_nonneg_left h0 hk) ?_
    refine mul_prob_le_bind _ _ (fun o => H.Matches (genome o)) _ _ fun o ho hm => ?_
    exact mutate_le hM hH hl _ p _ o hs (start_length hM (hg _ hx) (fun y h => hg _ (hy y h).1) ho) hm

end Schema

theorem average_add {α : Type} (p : Prog α) (f g : α → ℚ) : p.average (fun a => f a + g a) = p.average f + p.average g := by
  unfold average
  rw [← expect_add]
  exact expect_congr _ _ _ fun r _ => by cases r <;> simp

theorem average_const {α : Type} {p : Prog α} (h : Always (fun _ => True) p) (c : ℚ) : p.average (fun _ => c) = c := by
  unfold average
  refine Eq.trans (expect_congr _ _ (fun _ => c) fun r hr => ?_) (expect_const p c)
  obtain ⟨a, rfl, -⟩ := h r hr
  rfl

theorem average_bind {α β : Type} (p : Prog α) (k : α → Prog β) (f : β → ℚ) : (p >>= k).average f = p.average fun a => (k a).average f := by
  unfold average
  rw [expect_bind]
  exact expect_congr _ _ _ fun r _ => by cases r <;> rfl

theorem average_pure {α : Type} (a : α) (f : α → ℚ) : (pure a : Prog α).average f = f a := rfl

theorem average_indicator {α : Type} (p : Prog α) (P : α → Prop) [DecidablePred P] : p.average (fun a => if P a then 1 else 0) = p.prob P := by
  unfold average prob
  exact expect_congr _ _ _ fun r _ => by cases r <;> rfl

/-- How many of `n` independent results satisfy `P`, on average. -/
theorem average_replicate {α : Type} {p : Prog α} (h : Always (fun _ => True) p) (P : α → Prop) [DecidablePred P] (n : Nat) :
    Always (fun _ => True) (Prog.replicate n p) ∧
    (Prog.replicate n p).average (fun l => (l.countP (fun x => decide (P x)) : ℚ)) = n * p.prob P := by
  induction n with
  | zero => exact ⟨(always_pure _ _).2 trivial, by rw [show Prog.replicate 0 p = pure [] from rfl, average_pure]; simp⟩
  | succ n ih =>
    have e : Prog.replicate (n + 1) p = (p >>= fun a => Prog.replicate n p >>= fun as => pure (a :: as)) := rfl
    rw [e]
    refine ⟨(always_bind _ _ _).2 (h.mono fun a _ => (always_bind _ _ _).2 (ih.1.mono fun _ _ => (always_pure _ _).2 trivial)), ?_⟩
    rw [average_bind]
    have : ∀ a, (Prog.replicate n p >>= fun as => pure (a :: as)).average (fun l => (l.countP (fun x => decide (P x)) : ℚ)) =
        n * p.prob P + if P a then 1 else 0 := by
      intro a
      rw [average_bind]
      simp only [average_pure, List.countP_cons, decide_eq_true_eq]
      push_cast
      rw [average_add, ih.2, average_const ih.1]
    simp only [this]
    rw [average_add, average_const h, average_indicator]
    push_cast
    ring

theorem chance_one : chance F64.one = 1 := by
  unfold chance
  refine prob_eq_one_of_always _ _ fun r hr => ?_
  obtain ⟨k, hk, rfl⟩ := (yields_genF64 _).1 hr
  exact ⟨_, rfl, F64.unit_lt_one hk⟩

theorem chance_zero : chance F64.zero = 0 := by
  unfold chance
  have h : F64.zero.val = 0 := rfl
  rw [prob_fire rfl h.ge (by rw [h]; norm_num), h]
  simp

/-- `breed` when it surely makes a crossover and never mutates. -/
theorem expect_breed_sure (M : EvoOps I Mo U) (env : NumEnv) (model : Mo) (p : Population I) (hp : 1 < p.individuals.length)
    (r : ReproParams U) (hc : chance r.crossoverRate = 1) (hm : chance r.mutationRate = 0) (g : Res I → ℚ)  :
    (defaultBreed M env model p r).expect g = (twoParents M env p r >>= fun ps => breedStart M model ps.1 ps.2 >>= fun o =>
      breedEnd M model p (fitterParent ps.1 ps.2) o).expect g := by
  have hmut : ∀ o fp (g : Res I → ℚ), (breedMutate M model r.mutationRate o >>= fun o => breedEnd M model p fp o).expect g =
      (breedEnd M model p fp o).expect g := by
    intro o fp g
    unfold breedMutate
    rw [bind_assoc, expect_genF64_lt r.mutationRate fun c => (if c = true then M.mutate model o else pure o) >>= fun o =>
      breedEnd M model p fp o, hm]
    simp
  rw [defaultBreed_eq]
  have hstart : ∀ ps : I × Option I, (breedStart M model ps.1 ps.2 >>= fun o => breedMutate M model r.mutationRate o >>= fun o =>
      breedEnd M model p (fitterParent ps.1 ps.2) o).expect g = (breedStart M model ps.1 ps.2 >>= fun o =>
      breedEnd M model p (fitterParent ps.1 ps.2) o).expect g := by
    intro ps
    rw [expect_bind, expect_bind]
    refine expect_congr _ _ _ fun o _ => ?_
    cases o with
    | ok o => exact hmut o _ g
    | panic => rfl
    | diverge => rfl
  have h : ∀ k : I × Option I → Prog I, (breedParents M env p r >>= k).expect g = (twoParents M env p r >>= k).expect g := by
    intro k
    unfold breedParents twoParents
    simp only [bind_assoc]
    rw [expect_bind, expect_bind]
    refine expect_congr _ _ _ fun x _ => ?_
    cases x with
    | ok x =>
      dsimp only
      rw [if_pos (show p.len > 1 from hp), bind_assoc]
      simp only [Prog.bind_pure_left]
      rw [expect_genF64_lt r.crossoverRate (fun c => (if c = true then
        r.parentSelector.selectDistinct env M.selectors p 3 x.2 >>= fun r => pure (r.map Prod.snd) else pure none) >>= fun y =>
          k (x.2, y)), hc]
      simp only [if_true, bind_assoc, Prog.bind_pure_left]
      ring
    | panic => rfl
    | diverge => rfl
  rw [h, expect_bind, expect_bind]
  refine expect_congr _ _ _ fun ps _ => ?_
  cases ps with
  | ok ps => exact hstart ps
  | panic => rfl
  | diverge => rfl

end RG
