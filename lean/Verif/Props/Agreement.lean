import Verif.Proofs.Agreement
import Verif.Props.SameTrip
import Verif.Props.Partitions
import Verif.Props.Loci
import Verif.Route

/-!
# Property C110: what both parents have in common, and which crossover keeps it

Two things parents can agree on: a gene at a position, and an (undirected) edge of the round trip. PMX, CX and single-point
crossover keep every gene on whose position the parents agree; OX, SCX, ERX and GPX2 do not. GPX2 keeps every common edge
but perhaps the one that closes the trip of the first parent; PMX, OX, CX, SCX and ERX can lose others. What crossover keeps
stays through runs without mutation.
-/

set_option linter.unusedSectionVars false

namespace RG.Props
open RG RG.Prog
variable {G : Type} [DecidableEq G]

/-- Specification: wherever both parents have the same gene, so has the offspring. -/
def KeepsPositions (p q off : List G) : Prop := ∀ (i : Nat) (g : G), p[i]? = some g → q[i]? = some g → off[i]? = some g

/-- Specification: neighbours in both parents are neighbours in the offspring. -/
def KeepsEdges (p q off : List G) : Prop := ∀ a b, Adj p a b → Adj q a b → Adj off a b

/-! ### Positions -/

/-- **C110** PMX keeps the positions on which the parents agree, whatever the range. -/
theorem C110_pmx (p q : List G) (hnd : p.Nodup) (hp : q.Perm p) (hn : 2 ≤ p.length) (s e : Nat) (hse : s ≤ e) (he : e ≤ p.length)
    (fuel : Nat) (hf : p.length < fuel) : ∃ off, pmx fuel p q ⟨s, e⟩ = .ok off ∧ KeepsPositions p q off := by
  obtain ⟨off, h1, -, h3, -, h5⟩ := C25_pmx p q hnd hp hn s e hse he
  refine ⟨off, h1 fuel hf, fun i g hi hq => ?_⟩
  have hil : i < p.length := (List.getElem?_eq_some_iff.1 hi).1
  by_cases hr : s ≤ i ∧ i < e
  · rw [h3 i hr.1 hr.2, hi]
  · rw [h5 i hil hr ?_, hq]
    intro j hj1 hj2 hj
    have hne : j ≠ i := by rintro rfl; exact hr ⟨hj1, hj2⟩
    rw [hq] at hj
    exact hne ((List.getElem?_inj (by omega) hnd).1 (hj.trans hi.symm))

/-- **C110** CX keeps the positions on which the parents agree. -/
theorem C110_cx (p q : List G) (hnd : p.Nodup) (hp : q.Perm p) (hn : 2 ≤ p.length) :
    ∃ off, cx p q = .ok off ∧ KeepsPositions p q off := by
  obtain ⟨off, h1, h2, -⟩ := C27_positions p q hnd hp hn
  refine ⟨off, h1, fun i g hi hq => ?_⟩
  rcases h2 i with h | h
  · rw [h, hi]
  · rw [h, hq]

/-- **C110** Single-point crossover keeps the positions on which the parents agree, for all genomes of the same length. -/
theorem C110_spx (p q : List G) (hlen : p.length = q.length) (point : Nat) :
    ∃ off, spx p q point = .ok off ∧ KeepsPositions p q off := by
  obtain ⟨off, h1, -, h2⟩ := C28_positions p q hlen point
  refine ⟨off, h1, fun i g hi hq => ?_⟩
  rw [h2]
  split
  · exact hi
  · exact hq

/-- **C110** The strategies PMX, CX and single-point, for all draws. -/
theorem C110_positions (lt : G → G → Bool) (ord : Nat → List G → List G) (st : CrossoverStrategy)
    (hst : st = .partiallyMapped ∨ st = .cycle ∨ st = .singlePoint) (p q : List G) (hnd : p.Nodup) (hp : q.Perm p)
    (hn : 2 ≤ p.length) (fuel : Nat) (hf : p.length < fuel) :
    Always (fun off => KeepsPositions p q off) (st.crossover lt ord fuel p q) := by
  rcases hst with rfl | rfl | rfl
  · unfold CrossoverStrategy.crossover
    rw [always_bind]
    refine (always_randomRange _ (by omega)).mono ?_
    rintro ⟨s, e⟩ ⟨h1, h2⟩
    obtain ⟨off, e', h⟩ := C110_pmx p q hnd hp hn s e h1.le h2 fuel hf
    rw [e', lift_ok, always_pure]
    exact h
  · obtain ⟨off, e', h⟩ := C110_cx p q hnd hp hn
    show Always _ (Prog.lift (cx p q))
    rw [e', lift_ok, always_pure]
    exact h
  · unfold CrossoverStrategy.crossover
    rw [always_bind, always_rangeExcl]
    refine ⟨by omega, fun k _ _ => ?_⟩
    obtain ⟨off, e', h⟩ := C110_spx p q hp.length_eq.symm k
    rw [e', lift_ok, always_pure]
    exact h

/-- **C110** (limit) The other strategies do not keep positions. -/
theorem C110_positions_counterexample (st : CrossoverStrategy)
    (hst : st = .order ∨ st = .sequentialConstructive ∨ st = .edgeRecombination ∨ st = .generalizedPartition2) :
    ∃ p q off : List Nat, p.Nodup ∧ q.Perm p ∧ 3 ≤ p.length ∧ (st.crossover ltNat (fun _ l => l) 5 p q).yields (.ok off) ∧
      ¬ KeepsPositions p q off := by
  rcases hst with rfl | rfl | rfl | rfl
  · refine ⟨[0, 1, 2, 3], [1, 0, 2, 3], [0, 2, 3, 1], by decide, by decide, by decide, ?_, fun h => ?_⟩
    · refine (yields_range 4 (by decide) _ _).2 ⟨0, 1, by decide, by decide, ?_⟩
      rw [show ox 5 [0, 1, 2, 3] [1, 0, 2, 3] ⟨0, 1⟩ = .ok [0, 2, 3, 1] from by decide +kernel, lift_ok, yields_pure]
    · exact absurd (h 3 3 rfl rfl) (by decide)
  · refine ⟨[0, 1, 2], [0, 1, 2], [1, 2, 0], by decide, by decide, by decide, ?_, fun h => ?_⟩
    · refine (yields_pivot _ (by decide) _ _).2 ⟨1, by decide, ?_⟩
      rw [show scx [0, 1, 2] [0, 1, 2] 1 = .ok [1, 2, 0] from by decide +kernel, lift_ok, yields_pure]
    · exact absurd (h 0 0 rfl rfl) (by decide)
  · refine ⟨[0, 1, 2], [0, 1, 2], [0, 2, 1], by decide, by decide, by decide, ?_, fun h => ?_⟩
    · refine (yields_pivot _ (by decide) _ _).2 ⟨0, by decide, ?_⟩
      rw [show erx (fun _ l => l) [0, 1, 2] [0, 1, 2] 0 = .ok [0, 2, 1] from by decide +kernel, lift_ok, yields_pure]
    · exact absurd (h 1 1 rfl rfl) (by decide)
  · refine ⟨[0, 1, 2, 3], [1, 0, 2, 3], [2, 3, 0, 1], by decide, by decide, by decide, ?_, fun h => ?_⟩
    · refine C22_any_order ltNat _ _ _ (fun s last ps i hi => ?_) () [[0, 1], [2, 3]] [[2, 3], [0, 1]] (by decide +kernel) (by decide)
      exact ⟨(), (yields_bind_ok _ _ _).2 ⟨i, (yields_rangeExcl _ _ _).2 (Or.inr ⟨i, by omega, hi, rfl⟩), (yields_pure _ _).2 rfl⟩⟩
    · exact absurd (h 2 2 rfl rfl) (by decide)

/-! ### Edges -/

/-- **C110** GPX2 keeps every common edge of two consecutive genes of the first parent, whatever the selector of partitions. -/
theorem C110_gpx2 {S : Type} (lt : G → G → Bool) (hasymm : ∀ a b, lt a b = true → lt b a = false)
    (htotal : ∀ a b, lt a b = true ∨ a = b ∨ lt b a = true) (p q : List G) (hnd : p.Nodup) (hp : q.Perm p) (hn : 3 ≤ p.length)
    (sel : S → Option G → List (List G) → Prog (Nat × S))
    (hsel : ∀ s last ps, ps ≠ [] → Always (fun r => r.1 < ps.length) (sel s last ps)) (s : S) :
    Always (fun off => ∀ a b, [a, b] <:+: p → Adj q a b → Adj off a b) (gpx2 lt p q sel s) := by
  obtain ⟨parts, e, h⟩ := C22_gpx2 lt p q sel hsel s
  refine h.mono fun off ho a b hab hq => ?_
  obtain ⟨part, hpart, hi⟩ := C75_edges lt hasymm htotal p q hnd hp hn parts e a b hab hq
  rcases hi with hi | hi
  · exact Or.inl (follows_infix (hi.trans (ho.2.1 part hpart)))
  · exact Or.inr (follows_infix (hi.trans (ho.2.1 part hpart)))

/-- **C110** (limit) The common edge from the last gene of the first parent back to its first can be lost. -/
theorem C110_gpx2_closing_counterexample :
    ∃ p q off : List Nat, p.Nodup ∧ q.Perm p ∧
      (CrossoverStrategy.generalizedPartition2.crossover ltNat (fun _ l => l) 6 p q).yields (.ok off) ∧ ¬ KeepsEdges p q off := by
  refine ⟨[0, 1, 2, 3, 4], [2, 3, 1, 0, 4], [2, 3, 0, 1, 4], by decide, by decide, ?_, fun h => ?_⟩
  · refine C22_any_order ltNat _ _ _ (fun s last ps i hi => ?_) () [[0, 1], [2, 3], [4]] [[2, 3], [0, 1], [4]] (by decide +kernel)
      (by decide)
    exact ⟨(), (yields_bind_ok _ _ _).2 ⟨i, (yields_rangeExcl _ _ _).2 (Or.inr ⟨i, by omega, hi, rfl⟩), (yields_pure _ _).2 rfl⟩⟩
  · exact absurd (h 0 4 (by decide) (by decide)) (by decide)

/-- **C110** GPX2 makes at most as many edges that the first parent lacks as there are common partitions, and at most as many
that the second parent lacks. -/
theorem C110_gpx2_new {S : Type} (lt : G → G → Bool) (p q : List G) (sel : S → Option G → List (List G) → Prog (Nat × S))
    (hsel : ∀ s last ps, ps ≠ [] → Always (fun r => r.1 < ps.length) (sel s last ps)) (s : S) :
    ∃ parts, commonPartitions lt p q = .ok parts ∧
      Always (fun off => lostEdges (fun x y => s(x, y)) off p ≤ parts.length ∧ lostEdges (fun x y => s(x, y)) off q ≤ parts.length)
        (gpx2 lt p q sel s) := by
  obtain ⟨parts, e, h⟩ := C22_gpx2 lt p q sel hsel s
  obtain ⟨parts', e', hne, -, -, hch⟩ := C21_partitions lt p q
  rw [e] at e'; cases e'
  refine ⟨parts, e, h.mono fun off ho => ?_⟩
  obtain ⟨⟨order, hord, rfl⟩, -, hnd, -⟩ := ho
  have hne' : ∀ x ∈ order, x ≠ [] := fun x hx => hne x (hord.subset hx)
  rw [← hord.length_eq]
  exact ⟨new_edges_le hne' hnd fun x hx => (hch x (hord.subset hx)).imp fun _ _ h => h.1,
    new_edges_le hne' hnd fun x hx => (hch x (hord.subset hx)).imp fun _ _ h => h.2⟩

/-- **C110** (limit) The other permutation strategies can lose a common edge of two consecutive genes of the first parent. -/
theorem C110_edges_counterexample (st : CrossoverStrategy) (hst : st ≠ .generalizedPartition2) (hst' : st ≠ .singlePoint) :
    ∃ p q off : List Nat, ∃ a b, p.Nodup ∧ q.Perm p ∧ (st.crossover ltNat (fun _ l => l) 7 p q).yields (.ok off) ∧
      [a, b] <:+: p ∧ Adj q a b ∧ ¬ Adj off a b := by
  cases st with
  | generalizedPartition2 => exact absurd rfl hst
  | singlePoint => exact absurd rfl hst'
  | partiallyMapped =>
    refine ⟨[0, 1, 2, 3], [1, 2, 0, 3], [1, 0, 2, 3], 1, 2, by decide, by decide, ?_, ⟨[0], [3], rfl⟩, by decide, by decide⟩
    refine (yields_range 4 (by decide) _ _).2 ⟨2, 3, by decide, by decide, ?_⟩
    rw [show pmx 7 [0, 1, 2, 3] [1, 2, 0, 3] ⟨2, 3⟩ = .ok [1, 0, 2, 3] from by decide +kernel, lift_ok, yields_pure]
  | order =>
    refine ⟨[0, 1, 2, 3], [2, 1, 0, 3], [0, 1, 3, 2], 1, 2, by decide, by decide, ?_, ⟨[0], [3], rfl⟩, by decide, by decide⟩
    refine (yields_range 4 (by decide) _ _).2 ⟨0, 1, by decide, by decide, ?_⟩
    rw [show ox 7 [0, 1, 2, 3] [2, 1, 0, 3] ⟨0, 1⟩ = .ok [0, 1, 3, 2] from by decide +kernel, lift_ok, yields_pure]
  | cycle =>
    refine ⟨[0, 1, 2, 3], [3, 2, 1, 0], [0, 2, 1, 3], 0, 1, by decide, by decide, ?_, ⟨[], [2, 3], rfl⟩, by decide, by decide⟩
    show (Prog.lift (cx _ _)).yields _
    rw [show cx [0, 1, 2, 3] [3, 2, 1, 0] = .ok [0, 2, 1, 3] from by decide +kernel, lift_ok, yields_pure]
  | sequentialConstructive =>
    refine ⟨[0, 1, 2, 3], [1, 2, 0, 3], [2, 0, 1, 3], 1, 2, by decide, by decide, ?_, ⟨[0], [3], rfl⟩, by decide, by decide⟩
    refine (yields_pivot _ (by decide) _ _).2 ⟨2, by decide, ?_⟩
    rw [show scx [0, 1, 2, 3] [1, 2, 0, 3] 2 = .ok [2, 0, 1, 3] from by decide +kernel, lift_ok, yields_pure]
  | edgeRecombination =>
    refine ⟨[0, 1, 2, 3, 4, 5], [2, 0, 1, 3, 4, 5], [4, 3, 1, 0, 5, 2], 4, 5, by decide, by decide, ?_, ⟨[0, 1, 2, 3], [], rfl⟩,
      by decide, by decide⟩
    refine (yields_pivot _ (by decide) _ _).2 ⟨4, by decide, ?_⟩
    rw [show erx (fun _ l => l) [0, 1, 2, 3, 4, 5] [2, 0, 1, 3, 4, 5] 4 = .ok [4, 3, 1, 0, 5, 2] from by decide +kernel, lift_ok, yields_pure]

/-! ### Runs without mutation -/

section Runs
variable {I Mo U Q : Type} [Individual I]

/-- The offspring of two individuals with `P` have `P`, and `improve` and `evaluate` keep it; the rest of the model is the default. -/
structure ClosedUnder (M : EvoModel I Mo U) (P : I → Prop) : Prop where
  crossover : ∀ m a b c, P a → P b → (M.crossover m a b).yields (.ok c) → P c
  improve : ∀ m a c, P a → (M.improve m a).yields (.ok c) → P c
  evaluate : ∀ m a c, P a → (M.evaluate m a).yields (.ok c) → P c
  preGeneration : ∀ m p b, M.preGeneration m p b = pure (m, b)
  breed : M.breed = defaultBreed M.toEvoOps
  members : M.selectors.ReturnsMembers
  distinct : M.selectors.DistinctMembers

theorem ClosedUnder.descends {M : EvoModel I Mo U} {P : I → Prop} (hM : ClosedUnder M P) :
    Descends M (fun l x => (∀ y ∈ l, P y) → P x) fun _ m => F64.zero.lt m = false where
  self l x h hl := hl x h
  trans l l' x h h' hl := h fun y hy => h' y hy hl
  evaluate m l a c ha h hl := hM.evaluate m a c (hl a ha) h
  breed env m p r c hr h hl := by
    rw [hM.breed] at h
    obtain ⟨p1, p2, f, o, hm, hf, ⟨o0, o1, o2, h0, h1, h2, h3⟩, h⟩ := (yields_defaultBreed _ env m p r c).1 h
    obtain ⟨m1, m2⟩ := hm.mem hM.members hM.distinct
    rcases h with ⟨-, -, rfl⟩ | ⟨-, rfl⟩
    · have e1 : o1 = o0 := by
        rcases h1 with ⟨-, h1⟩ | ⟨h1, -⟩
        · exact h1
        · rw [canFire_iff_pos, hr] at h1; cases h1
      subst e1
      refine hM.evaluate _ _ _ (hM.improve _ _ _ ?_ h2) h3
      rcases h0 with ⟨-, rfl⟩ | ⟨b, hb, h0⟩
      · exact hl _ m1
      · exact hM.crossover _ _ _ _ (hl _ m1) (hl _ (m2 b hb).1) h0
    · exact hl _ (hf.mem m1 fun b hb => (m2 b hb).1)
  preGeneration := hM.preGeneration

/-- **C110** Without mutation, what crossover keeps stays: if all initial individuals have `P`, so have all individuals of all
populations of the run. -/
theorem C110_ga (M : EvoModel I Mo U) (P : I → Prop) (hM : ClosedUnder M P) (envs : Nat → Env I) (henv : ∀ t, (envs t).Lawful)
    (progress : Q → Population I → Prog (Bool × Q)) (fuel : Nat) (a : Ga Mo U) (l : List I) (hl : ∀ x ∈ l, P x) (p : GaParams)
    (hp : F64.zero.lt p.mutationRate = false) (q : Q) (fin : Bool) (st : RunState I (Ga Mo U) Q)
    (h : (evolvePopulation (ga M) envs progress fuel a l p q).yields (.ok (fin, st))) :
    ∀ pop ∈ st.shown ++ [st.population], ∀ x ∈ pop.individuals, P x := fun pop hpop x hx =>
  (C106_ga_run M _ _ hM.descends envs henv progress fuel a l p hp q fin st h).initial pop hpop x hx hl

/-- **C110** The same for the adaptive genetic algorithm with mutation rates from zero to zero. -/
theorem C110_aga (M : EvoModel I Mo U) (P : I → Prop) (hM : ClosedUnder M P) (envs : Nat → Env I) (henv : ∀ t, (envs t).Lawful)
    (progress : Q → Population I → Prog (Bool × Q)) (fuel : Nat) (a : Aga Mo U) (l : List I) (hl : ∀ x ∈ l, P x) (p : AgaParams)
    (hp : ZeroRange p.mutationRateRange) (q : Q) (fin : Bool) (st : RunState I (Aga Mo U) Q)
    (h : (evolvePopulation (aga M) envs progress fuel a l p q).yields (.ok (fin, st))) :
    ∀ pop ∈ st.shown ++ [st.population], ∀ x ∈ pop.individuals, P x := fun pop hpop x hx =>
  (C106_aga_run M _ _ hM.descends envs henv progress fuel a l p hp (Or.inl fun _ _ h => h) q fin st h).initial pop hpop x hx hl

end Runs

/-- A set of genomes closed under the crossover of a problem over arrangements. -/
theorem route_closed (Pb : Route.Problem G) (P : List G → Prop)
    (h : ∀ a b c, P a → P b → (Pb.crossover.crossover Pb.lt Pb.ord Pb.fuel a b).yields (.ok c) → P c) :
    ClosedUnder (Route.model Pb) fun x => P x.genome where
  crossover m a b c ha hb hc := by
    obtain ⟨g, h1, h2⟩ := (yields_bind_ok _ _ _).1 hc
    cases (yields_pure _ _).1 h2
    exact h _ _ _ ha hb h1
  improve m a c ha hc := by cases (yields_pure _ _).1 hc; exact ha
  evaluate m a c ha hc := by cases (yields_pure _ _).1 hc; exact ha
  preGeneration m p b := rfl
  breed := rfl
  members := fun u => u.elim
  distinct := fun u => u.elim

/-- **C110** Problems over arrangements with PMX or CX: the genes on whose positions all initial individuals agree stay where they
are. -/
theorem C110_positions_closed (Pb : Route.Problem G) (hst : Pb.crossover = .partiallyMapped ∨ Pb.crossover = .cycle)
    (hord : ∀ k l, (Pb.ord k l).Perm l) (genes : List G) (hnd : genes.Nodup) (hn : 2 ≤ genes.length) (hf : genes.length < Pb.fuel)
    (i : Nat) (g : G) : ClosedUnder (Route.model Pb) fun x => x.genome.Perm genes ∧ x.genome[i]? = some g := by
  refine route_closed Pb (fun y => y.Perm genes ∧ y[i]? = some g) fun a b c ha hb hc => ?_
  have hpa := ha.1.length_eq
  have hnda : a.Nodup := ha.1.nodup_iff.2 hnd
  have hba : b.Perm a := hb.1.trans ha.1.symm
  obtain ⟨off, e, h1⟩ := C30_permutation Pb.lt Pb.ord hord Pb.crossover (by rcases hst with h | h <;> rw [h] <;> decide) a b hnda hba
    (by rintro rfl; simp at hpa; omega) Pb.fuel (by omega) _ hc
  cases e
  obtain ⟨off, e, h2⟩ := C110_positions Pb.lt Pb.ord Pb.crossover (by rcases hst with h | h <;> simp [h]) a b hnda hba (by omega)
    Pb.fuel (by omega) _ hc
  cases e
  exact ⟨h1.trans ha.1, h2 i g ha.2 hb.2⟩

/-- **C110** Problems over arrangements with GPX2, SCX or ERX: if all initial individuals stand for the same round trip, there is
never another. -/
theorem C110_trip_closed (Pb : Route.Problem G)
    (hst : Pb.crossover = .generalizedPartition2 ∨ Pb.crossover = .sequentialConstructive ∨ Pb.crossover = .edgeRecombination)
    (hasymm : ∀ a b, Pb.lt a b = true → Pb.lt b a = false) (htotal : ∀ a b, Pb.lt a b = true ∨ a = b ∨ Pb.lt b a = true)
    (hord : ∀ k l, (Pb.ord k l).Perm l) (genes : List G) (hnd : genes.Nodup) (hn : 3 ≤ genes.length) (hf : genes.length < Pb.fuel) :
    ClosedUnder (Route.model Pb) fun x => x.genome.Perm genes ∧ SameTrip genes x.genome := by
  refine route_closed Pb (fun y => y.Perm genes ∧ SameTrip genes y) fun a b c ha hb hc => ?_
  have hpa := ha.1.length_eq
  have hnda : a.Nodup := ha.1.nodup_iff.2 hnd
  have hba : b.Perm a := hb.1.trans ha.1.symm
  obtain ⟨off, e, h1⟩ := C30_permutation Pb.lt Pb.ord hord Pb.crossover (by rcases hst with h | h | h <;> rw [h] <;> decide) a b hnda
    hba (by rintro rfl; simp at hpa; omega) Pb.fuel (by omega) _ hc
  cases e
  obtain ⟨off, e, h2⟩ := C108_strategy Pb.lt hasymm htotal Pb.ord hord Pb.crossover a b hnda hba (by omega)
    (show SameTrip a b from ha.2.symm.trans hb.2) hst Pb.fuel (by omega) _ hc
  cases e
  exact ⟨h1.trans ha.1, ha.2.trans h2⟩

/-! Examples: the hypotheses can be met, and the keeping is not empty. -/

example : ∃ off, pmx 6 [0, 1, 2, 3, 4] [1, 0, 2, 4, 3] ⟨1, 3⟩ = .ok off ∧ KeepsPositions [0, 1, 2, 3, 4] [1, 0, 2, 4, 3] off :=
  C110_pmx _ _ (by decide) (by decide) (by decide) 1 3 (by decide) (by decide) 6 (by decide)
example : ([0, 1, 2, 3, 4] : List Nat)[2]? = some 2 ∧ ([1, 0, 2, 4, 3] : List Nat)[2]? = some 2 := by decide
/-- Three common partitions, and in the order of `C110_gpx2_closing_counterexample` GPX2 does make three edges that the first parent
lacks. -/
example : commonPartitions ltNat [0, 1, 2, 3, 4] [2, 3, 1, 0, 4] = .ok [[0, 1], [2, 3], [4]] ∧
    lostEdges (fun x y => s(x, y)) [2, 3, 0, 1, 4] [0, 1, 2, 3, 4] = 3 ∧
    lostEdges (fun x y => s(x, y)) [2, 3, 0, 1, 4] [2, 3, 1, 0, 4] = 2 := by decide +kernel
/-- A problem to which the closed sets apply: the order of natural numbers, PMX or ERX, genes 0 to 3. -/
example : (∀ a b, ltNat a b = true → ltNat b a = false) ∧ (∀ a b, ltNat a b = true ∨ a = b ∨ ltNat b a = true) ∧
    ([0, 1, 2, 3] : List Nat).Nodup ∧ [3, 2, 1, 0].Perm [0, 1, 2, 3] ∧ SameTrip [0, 1, 2, 3] [3, 2, 1, 0] := by
  simp only [ltNat, decide_eq_true_eq, decide_eq_false_iff_not]
  exact ⟨fun a b => by omega, fun a b => by omega, by decide, by decide, by unfold SameTrip; decide +kernel⟩

end RG.Props
