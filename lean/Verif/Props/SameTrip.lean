import Verif.Proofs.SameTrip

/-!
# Property C108: crossing two writings of the same round trip

A round trip can be written from any of its genes and in either direction. Specification: two genomes stand for the same
trip if they have the same undirected edges (`tourEdges` of `Verif/SpecTour.lean`).
-/

namespace RG.Props
open RG Prog
variable {G : Type} [DecidableEq G]

/-- Specification: both genomes have the same undirected edges. -/
def SameTrip (p q : List G) : Prop := tourEdges (fun x y => s(x, y)) p = tourEdges (fun x y => s(x, y)) q

omit [DecidableEq G] in
theorem SameTrip.adj {p q : List G} (h : SameTrip p q) (x y : G) : Adj p x y ↔ Adj q x y := by
  rw [adj_edge, adj_edge, show tourEdges (fun x y => s(x, y)) p = _ from h]

/-- **C108** Genomes of different genes stand for the same trip exactly if one is the other read from another gene on,
forwards or backwards. -/
theorem C108_same_trip (p q : List G) (hp : p.Nodup) (hq : q.Nodup) : SameTrip p q ↔ q ~r p ∨ q ~r p.reverse := by
  constructor
  · intro h
    have hl : q.length = p.length := by
      have := congrArg Multiset.card (show tourEdges (fun x y => s(x, y)) p = _ from h)
      rw [tourEdges_card, tourEdges_card] at this
      exact this.symm
    cases q with
    | nil =>
      left
      have : p = [] := List.length_eq_zero_iff.1 hl.symm
      rw [this]
    | cons a q =>
      have hmem : a ∈ p := by
        have hf : Adj (a :: q) a ((a :: q)[1 % (a :: q).length]'(Nat.mod_lt _ (by simp))) := Or.inl
          ⟨0, by simp, rfl, List.getElem?_eq_getElem _⟩
        rcases (h.adj _ _).2 hf with ⟨i, -, h1, -⟩ | ⟨i, -, -, h1⟩ <;> exact List.mem_of_getElem? h1
      by_cases hn : 2 ≤ p.length
      · refine walk_trip hp hn hl a hmem rfl fun i x y hx hy _ => ⟨(h.adj x y).2 (Or.inl ?_), fun hm => ?_⟩
        · obtain ⟨h1, e1⟩ := List.getElem?_eq_some_iff.1 hy
          exact ⟨i, by omega, hx, by rw [Nat.mod_eq_of_lt h1]; exact hy⟩
        · obtain ⟨k, e⟩ := List.mem_iff_getElem?.1 hm
          rw [List.getElem?_take] at e
          split at e
          · exact nodup_getElem?_ne hq (List.getElem?_eq_some_iff.1 e).1 (by omega) (e.trans hy.symm)
          · cases e
      · left
        match p, hl, hmem with
        | [b], hl, hmem =>
          rw [List.mem_singleton] at hmem
          have : q = [] := by simpa using hl
          rw [this, hmem]
        | b :: c :: p, _, _ => simp at hn
  · rintro (h | h)
    · exact (tourEdges_rotated _ h).symm
    · exact (tourEdges_whole _ (fun _ _ => Sym2.eq_swap) p).symm.trans (tourEdges_rotated _ h).symm

/-- **C108** ERX of two writings of the same trip gives a writing of this trip, whatever the pivot and the hash orders. -/
theorem C108_erx (ord : Nat → List G → List G) (hord : ∀ k l, (ord k l).Perm l) (p q : List G) (hnd : p.Nodup) (hp : q.Perm p)
    (hn : 2 ≤ p.length) (hs : SameTrip p q) (pivot : G) (hv : pivot ∈ p) : ∃ off, erx ord p q pivot = .ok off ∧ SameTrip p off := by
  obtain ⟨off, e, h1, h2, h3⟩ := C24_erx ord hord p q hnd hp hn pivot hv
  refine ⟨off, e, (C108_same_trip p off hnd (h1.nodup_iff.2 hnd)).2 ?_⟩
  refine walk_trip hnd hn h1.length_eq pivot hv (by rw [← List.head?_eq_getElem?]; exact h2) fun i a b ha hb hx => ?_
  have hc : ∀ x, Candidate p q (off.take (i + 1)).reverse a x ↔ Adj p a x ∧ x ∉ off.take (i + 1) := by
    intro x
    unfold Candidate
    rw [← hs.adj, or_self, List.mem_reverse]
  rcases h3 i a b ha hb with ⟨h, -⟩ | ⟨h, -⟩
  · exact (hc b).1 h
  · obtain ⟨x, hx⟩ := hx
    exact absurd ((hc x).2 hx) (h x)

/-- **C108** GPX2 of two writings of the same trip gives the first of them. -/
theorem C108_gpx2 {S : Type} (lt : G → G → Bool) (hasymm : ∀ a b, lt a b = true → lt b a = false)
    (htotal : ∀ a b, lt a b = true ∨ a = b ∨ lt b a = true) (p q : List G) (hnd : p.Nodup) (hp : q.Perm p) (hn : 3 ≤ p.length)
    (hs : SameTrip p q) (sel : S → Option G → List (List G) → Prog (Nat × S))
    (hsel : ∀ s last ps, ps ≠ [] → Always (fun r => r.1 < ps.length) (sel s last ps)) (s : S) :
    Always (fun off => off = p) (gpx2 lt p q sel s) := by
  obtain ⟨parts, e, h⟩ := C22_gpx2 lt p q sel hsel s
  obtain ⟨_, e', hc⟩ := (C75_partitions lt hasymm htotal p q hnd hp hn _).1 e
  cases e'
  have hne : p ≠ [] := by rintro rfl; simp at hn
  have hruns : commonRuns p q = [p] := by
    refine List.splitBy_of_isChain hne ?_
    rw [List.isChain_iff_getElem]
    intro i hi
    refine decide_eq_true ((hs.adj _ _).1 (Or.inl ⟨i, by omega, List.getElem?_eq_getElem _, ?_⟩))
    rw [Nat.mod_eq_of_lt hi]
    exact List.getElem?_eq_getElem _
  have hparts : parts = [p] := by
    rcases hc with ⟨x, mid, last, hw, -⟩ | ⟨-, rfl⟩
    · have := congrArg List.length (hruns.symm.trans hw.1)
      simp at this
    · exact hruns
  subst hparts
  refine h.mono fun off ho => ?_
  obtain ⟨order, h1, h2⟩ := ho.1
  rw [List.perm_singleton.1 h1] at h2
  simpa using h2

/-- **C108** The same for the strategy, which draws the partitions at random. -/
theorem C108_gpx2_strategy (lt : G → G → Bool) (hasymm : ∀ a b, lt a b = true → lt b a = false)
    (htotal : ∀ a b, lt a b = true ∨ a = b ∨ lt b a = true) (ord : Nat → List G → List G) (fuel : Nat) (p q : List G) (hnd : p.Nodup)
    (hp : q.Perm p) (hn : 3 ≤ p.length) (hs : SameTrip p q) :
    Always (fun off => off = p) (CrossoverStrategy.generalizedPartition2.crossover lt ord fuel p q) := by
  refine C108_gpx2 lt hasymm htotal p q hnd hp hn hs _ (fun s last ps hps => ?_) ()
  rw [always_bind, always_rangeExcl]
  refine ⟨List.length_pos_of_ne_nil hps, fun i _ hi => ?_⟩
  rw [always_pure]
  exact hi

omit [DecidableEq G] in
theorem next_new {r o : List G} (hnd : r.Nodup) {i : Nat} (h : ∀ j : Nat, j ≤ i → o[j]? = r[j]?) (hi : i + 1 < r.length) :
    r[i + 1] ∉ o.take (i + 1) := by
  intro hm
  obtain ⟨k, e⟩ := List.mem_iff_getElem?.1 hm
  rw [List.getElem?_take] at e
  split at e
  · rename_i hk
    rw [h k (by omega), ← List.getElem?_eq_getElem hi] at e
    exact nodup_getElem?_ne hnd (show k < r.length by omega) (by omega) e
  · cases e

/-- **C108** SCX of a genome and the same read from another gene on gives the genome read from the pivot on. -/
theorem C108_scx (p q : List G) (hnd : p.Nodup) (hq : q ~r p) (hn : 2 ≤ p.length) (pivot : G) (hv : pivot ∈ p) :
    ∃ off, scx p q pivot = .ok off ∧ off ~r p ∧ off.head? = some pivot := by
  obtain ⟨off, e, h1, h2, h3⟩ := C23_scx p q hnd hq.perm hn pivot hv
  refine ⟨off, e, ?_, h2⟩
  obtain ⟨u, v, rfl⟩ := List.append_of_mem hv
  have hrot : (pivot :: (v ++ u)) ~r (u ++ pivot :: v) := by
    have : (u ++ pivot :: v) ~r ((pivot :: v) ++ u) := List.isRotated_append
    simpa using this.symm
  have hf1 : ∀ x y, Follows (u ++ pivot :: v) x y ↔ Follows (pivot :: (v ++ u)) x y := by
    intro x y
    rw [follows_edge, follows_edge, tourEdges_rotated _ hrot]
  have hf2 : ∀ x y, Follows q x y ↔ Follows (pivot :: (v ++ u)) x y := by
    intro x y
    rw [follows_edge, follows_edge, tourEdges_rotated _ (hq.trans hrot.symm)]
  have hndr : (pivot :: (v ++ u)).Nodup := hrot.nodup_iff.2 hnd
  have hl : off.length = (pivot :: (v ++ u)).length := h1.length_eq.trans hrot.perm.length_eq.symm
  have key : off = pivot :: (v ++ u) := by
    have hr0 : (pivot :: (v ++ u))[0]? = some pivot := rfl
    generalize pivot :: (v ++ u) = r at *
    have hind : ∀ i : Nat, ∀ j : Nat, j ≤ i → off[j]? = r[j]? := by
      intro i
      induction i with
      | zero =>
        intro j hj
        rw [Nat.le_zero.1 hj, ← List.head?_eq_getElem?, h2, hr0]
      | succ i ih =>
        intro j hj
        rcases Nat.lt_or_ge j (i + 1) with h | h
        · exact ih j (by omega)
        have : j = i + 1 := by omega
        subst this
        by_cases hlt : i + 1 < r.length
        · have ea : off[i]? = some r[i] := by rw [ih i le_rfl, List.getElem?_eq_getElem]
          have eb : off[i + 1]? = some (off[i + 1]'(by omega)) := List.getElem?_eq_getElem _
          have hf : Follows r r[i] r[i + 1] := ⟨i, by omega, List.getElem?_eq_getElem _, by
            rw [Nat.mod_eq_of_lt hlt]; exact List.getElem?_eq_getElem _⟩
          obtain ⟨s1, s2, k1, k2, k⟩ := h3 i _ _ ea eb
          have e1 := follows_unique hndr ((hf1 _ _).1 k1) hf
          have e2 := follows_unique hndr ((hf2 _ _).1 k2) hf
          have hnew := next_new hndr ih hlt
          rw [← List.mem_reverse] at hnew
          rw [e1, e2] at k
          rw [eb, List.getElem?_eq_getElem hlt]
          rcases k with ⟨h, -⟩ | ⟨h, -⟩ | ⟨-, h, -⟩ | ⟨-, -, h⟩
          · exact absurd h hnew
          · exact absurd h hnew
          · exact absurd h hnew
          · rw [h, ite_self]
        · rw [List.getElem?_eq_none (by omega), List.getElem?_eq_none (by omega)]
    exact List.ext_getElem? fun i => hind i i le_rfl
  rw [key]
  exact hrot

omit [DecidableEq G] in
theorem follows_reverse (p : List G) (x y : G) : Follows p.reverse x y ↔ Follows p y x := by
  have h : tourEdges (fun a b => (b, a)) p.reverse = tourEdges (fun a b => (a, b)) p := by
    rw [tourEdges_eq, tourEdges_eq]
    have hp : ∀ l : List G, pathEdges (fun a b => (b, a)) l.reverse = (pathEdges (fun a b => (a, b)) l).reverse := by
      intro l
      induction l with
      | nil => rfl
      | cons z l ih =>
        rw [List.reverse_cons, pathEdges_append, ih]
        cases l with
        | nil => simp [pathEdges, linkEdge]
        | cons w l =>
          have : linkEdge (fun a b => (b, a)) (w :: l).reverse [z] = [(z, w)] := by simp [linkEdge]
          rw [this]
          simp [pathEdges]
    rw [hp, ← Multiset.coe_add, ← Multiset.coe_add, Multiset.coe_reverse]
    congr 2
    unfold linkEdge
    rw [List.getLast?_reverse, List.head?_reverse]
    cases p.head? <;> cases p.getLast? <;> rfl
  have hsw : ∀ l : List G, tourEdges (fun a b => (b, a)) l = (tourEdges Prod.mk l).map Prod.swap := by
    intro l
    unfold tourEdges
    rw [Multiset.map_coe, List.map_zipWith]
    rfl
  rw [follows_edge, follows_edge, show tourEdges Prod.mk p = _ from h.symm, hsw, Multiset.mem_map]
  constructor
  · intro hm
    exact ⟨_, hm, rfl⟩
  · rintro ⟨⟨a, b⟩, hm, e⟩
    cases e
    exact hm

/-- **C108** SCX of two writings of the same trip, in the same or in opposite directions, gives a writing of this trip. -/
theorem C108_scx_trip (p q : List G) (hnd : p.Nodup) (hp : q.Perm p) (hn : 2 ≤ p.length) (hs : SameTrip p q) (pivot : G) (hv : pivot ∈ p) :
    ∃ off, scx p q pivot = .ok off ∧ SameTrip p off := by
  rcases (C108_same_trip p q hnd (hp.nodup_iff.2 hnd)).1 hs with hq | hq
  · obtain ⟨off, e, h, -⟩ := C108_scx p q hnd hq hn pivot hv
    exact ⟨off, e, (C108_same_trip p off hnd (h.nodup_iff.2 hnd)).2 (Or.inl h)⟩
  obtain ⟨off, e, h1, h2, h3⟩ := C23_scx p q hnd hp hn pivot hv
  refine ⟨off, e, (C108_same_trip p off hnd (h1.nodup_iff.2 hnd)).2 ?_⟩
  refine walk_trip hnd hn h1.length_eq pivot hv (by rw [← List.head?_eq_getElem?]; exact h2) fun i a b ha hb hx => ?_
  obtain ⟨s1, s2, k1, k2, k⟩ := h3 i a b ha hb
  have hback : ∀ x, Follows q a x ↔ Follows p x a := by
    intro x
    rw [← follows_reverse p, follows_edge, follows_edge, tourEdges_rotated _ hq]
  simp only [List.mem_reverse] at k
  have a1 : Adj p a s1 := Or.inl k1
  have a2 : Adj p a s2 := Or.inr ((hback s2).1 k2)
  rcases k with ⟨n1, n2, -⟩ | ⟨-, n2, rfl⟩ | ⟨n1, -, rfl⟩ | ⟨n1, n2, rfl⟩
  · exfalso
    obtain ⟨x, hx1, hx2⟩ := hx
    rcases hx1 with hx1 | hx1
    · exact hx2 (follows_unique hnd hx1 k1 ▸ n1)
    · exact hx2 (follows_unique (hp.nodup_iff.2 hnd) ((hback x).2 hx1) k2 ▸ n2)
  · exact ⟨a2, n2⟩
  · exact ⟨a1, n1⟩
  · split
    · exact ⟨a1, n1⟩
    · exact ⟨a2, n2⟩

omit [DecidableEq G] in
theorem pmxMaps_self {p : List G} {s e : Nat} {g r : G} (h : PmxMaps p p s e g r) : r = g := by
  induction h with
  | stop _ => rfl
  | step _ _ h1 h2 _ ih =>
    rw [h1] at h2
    cases h2
    exact ih

/-- **C108** A genome crossed with itself: every strategy but SCX and ERX returns it, SCX the genome read from the pivot on,
ERX a writing of the same trip. -/
theorem C108_self (lt : G → G → Bool) (hasymm : ∀ a b, lt a b = true → lt b a = false)
    (htotal : ∀ a b, lt a b = true ∨ a = b ∨ lt b a = true) (ord : Nat → List G → List G) (hord : ∀ k l, (ord k l).Perm l)
    (st : CrossoverStrategy) (p : List G) (hnd : p.Nodup) (hn : 3 ≤ p.length) (fuel : Nat) (hf : p.length < fuel) :
    Always (fun off => SameTrip p off ∧ (st ≠ .edgeRecombination → off ~r p) ∧
      (st ≠ .edgeRecombination → st ≠ .sequentialConstructive → off = p)) (st.crossover lt ord fuel p p) := by
  intro r hr
  obtain ⟨off, rfl, ho⟩ := (C74_strategy lt hasymm htotal st p p hnd (List.Perm.refl p) hn fuel hf r).1 ⟨ord, hord, hr⟩
  refine ⟨off, rfl, ?_⟩
  have same : ∀ {off : List G}, off = p → SameTrip p off ∧ (st ≠ .edgeRecombination → off ~r p) ∧
      (st ≠ .edgeRecombination → st ≠ .sequentialConstructive → off = p) := by
    rintro off rfl
    exact ⟨rfl, fun _ => List.IsRotated.refl _, fun _ _ => rfl⟩
  cases st with
  | generalizedPartition2 =>
    obtain ⟨off', e, h⟩ := C108_gpx2_strategy lt hasymm htotal ord fuel p p hnd (List.Perm.refl p) hn rfl _ hr
    cases e
    exact same h
  | sequentialConstructive =>
    obtain ⟨pivot, hv, ht⟩ := ho
    obtain ⟨off', e, h1, -⟩ := C108_scx p p hnd (List.IsRotated.refl p) (by omega) pivot hv
    obtain ⟨_, e', ht'⟩ := (C74_scx p p hnd (List.Perm.refl p) (by omega) pivot hv _).1 e
    cases e'
    have := tour_unique (step := ScxStep p p) (fun _ _ _ _ h h' => scxStep_unique hnd hnd h h') ht ht'
    subst this
    refine ⟨(C108_same_trip p off hnd (h1.nodup_iff.2 hnd)).2 (Or.inl h1), fun _ => h1, fun _ h => absurd rfl h⟩
  | edgeRecombination =>
    obtain ⟨pivot, hv, ht⟩ := ho
    obtain ⟨ord', hord', e⟩ := (C74_erx p p hnd (List.Perm.refl p) (by omega) pivot hv (.ok off)).2 ⟨off, rfl, ht⟩
    obtain ⟨off', e', h1⟩ := C108_erx ord' hord' p p hnd (List.Perm.refl p) (by omega) rfl pivot hv
    rw [e] at e'
    cases e'
    exact ⟨h1, fun h => absurd rfl h, fun h => absurd rfl h⟩
  | partiallyMapped =>
    obtain ⟨s, e, -, -, h⟩ := ho
    refine same (List.ext_getElem? fun i => ?_)
    by_cases hi : i < p.length
    · by_cases hin : s ≤ i ∧ i < e
      · exact h.inside i hin.1 hin.2
      · obtain ⟨g, r, h1, h2, h3⟩ := h.outside i hi hin
        rw [h1, h2, pmxMaps_self h3]
    · rw [List.getElem?_eq_none (by rw [h.length]; omega), List.getElem?_eq_none (by omega)]
  | order =>
    obtain ⟨s, e, hse, he, h⟩ := ho
    refine same (List.rotate_injective e ?_)
    unfold OxOffspring at h
    show off.rotate e = p.rotate e
    rw [h, List.rotate_eq_drop_append_take he]
    have ht : p.take e = p.take s ++ (p.drop s).take (e - s) := by
      conv_lhs => rw [show e = s + (e - s) by omega, List.take_add]
    have hp : p = p.take s ++ (p.drop s).take (e - s) ++ p.drop e := by rw [← ht, List.take_append_drop]
    have hnd' : (p.take s ++ (p.drop s).take (e - s) ++ p.drop e).Nodup := hp ▸ hnd
    rw [ht]
    generalize p.take s = a at *
    generalize (p.drop s).take (e - s) = w at *
    generalize p.drop e = c at *
    have h1 := List.disjoint_of_nodup_append hnd'
    have h2 := List.disjoint_of_nodup_append (List.nodup_append.1 hnd').1
    rw [List.filter_append, List.filter_append, List.filter_eq_self.2, List.filter_eq_self.2, List.filter_eq_nil_iff.2]
    · simp
    · intro x hx; simpa using hx
    · intro x hx; simpa using fun hw => h2 hx hw
    · intro x hx; simpa using fun hw => h1 (List.mem_append_right _ hw) hx
  | cycle =>
    obtain ⟨starts, h⟩ := ho
    refine same (List.ext_getElem? fun i => ?_)
    by_cases hi : i < p.length
    · obtain ⟨k, s, -, -, -, e⟩ := h.genes i hi
      rw [e, ite_self]
    · rw [List.getElem?_eq_none (by rw [h.length]; omega), List.getElem?_eq_none (by omega)]
  | singlePoint =>
    obtain ⟨k, -, rfl⟩ := ho
    exact same (List.take_append_drop _ _)

/-- **C108** Two writings of the same trip crossed by a strategy that works with edges or successors (GPX2, SCX, ERX): every
offspring is a writing of the same trip. -/
theorem C108_strategy (lt : G → G → Bool) (hasymm : ∀ a b, lt a b = true → lt b a = false)
    (htotal : ∀ a b, lt a b = true ∨ a = b ∨ lt b a = true) (ord : Nat → List G → List G) (hord : ∀ k l, (ord k l).Perm l)
    (st : CrossoverStrategy) (p q : List G) (hnd : p.Nodup) (hp : q.Perm p) (hn : 3 ≤ p.length) (hs : SameTrip p q)
    (hst : st = .generalizedPartition2 ∨ st = .sequentialConstructive ∨ st = .edgeRecombination)
    (fuel : Nat) (hf : p.length < fuel) : Always (fun off => SameTrip p off) (st.crossover lt ord fuel p q) := by
  intro r hr
  obtain ⟨off, rfl, ho⟩ := (C74_strategy lt hasymm htotal st p q hnd hp hn fuel hf r).1 ⟨ord, hord, hr⟩
  refine ⟨off, rfl, ?_⟩
  rcases hst with rfl | rfl | rfl
  · obtain ⟨off', e, h⟩ := C108_gpx2_strategy lt hasymm htotal ord fuel p q hnd hp hn hs _ hr
    cases e
    rw [h]
    rfl
  · obtain ⟨pivot, hv, ht⟩ := ho
    obtain ⟨off', e, h1⟩ := C108_scx_trip p q hnd hp (by omega) hs pivot hv
    obtain ⟨_, e', ht'⟩ := (C74_scx p q hnd hp (by omega) pivot hv _).1 e
    cases e'
    have := tour_unique (step := ScxStep p q) (fun _ _ _ _ h h' => scxStep_unique hnd (hp.nodup_iff.2 hnd) h h') ht ht'
    subst this
    exact h1
  · obtain ⟨pivot, hv, ht⟩ := ho
    obtain ⟨ord', hord', e⟩ := (C74_erx p q hnd hp (by omega) pivot hv (.ok off)).2 ⟨off, rfl, ht⟩
    obtain ⟨off', e', h1⟩ := C108_erx ord' hord' p q hnd hp (by omega) hs pivot hv
    rw [e] at e'
    cases e'
    exact h1

/-- **C108** (limit) The strategies that work with positions do not: PMX, OX and CX can make another trip of a genome and the
same read from another gene on. -/
theorem C108_positions_counterexample (st : CrossoverStrategy) (hst : st = .partiallyMapped ∨ st = .order ∨ st = .cycle)
    (lt : Nat → Nat → Bool) (ord : Nat → List Nat → List Nat) :
    ∃ p q off : List Nat, p.Nodup ∧ q ~r p ∧ SameTrip p q ∧ (st.crossover lt ord 7 p q).yields (.ok off) ∧ ¬ SameTrip p off := by
  rcases hst with rfl | rfl | rfl
  · refine ⟨[0, 1, 2, 3, 4, 5], [1, 2, 3, 4, 5, 0], [0, 2, 3, 4, 5, 1], by decide, ⟨5, rfl⟩, by unfold SameTrip; decide +kernel, ?_,
      by unfold SameTrip; decide +kernel⟩
    refine (yields_range 6 (by decide) _ _).2 ⟨0, 1, by decide, by decide, ?_⟩
    rw [show pmx 7 [0, 1, 2, 3, 4, 5] [1, 2, 3, 4, 5, 0] ⟨0, 1⟩ = .ok [0, 2, 3, 4, 5, 1] from by decide +kernel, lift_ok, yields_pure]
  · refine ⟨[0, 1, 2, 3, 4, 5], [1, 2, 3, 4, 5, 0], [0, 2, 3, 4, 5, 1], by decide, ⟨5, rfl⟩, by unfold SameTrip; decide +kernel, ?_,
      by unfold SameTrip; decide +kernel⟩
    refine (yields_range 6 (by decide) _ _).2 ⟨0, 1, by decide, by decide, ?_⟩
    rw [show ox 7 [0, 1, 2, 3, 4, 5] [1, 2, 3, 4, 5, 0] ⟨0, 1⟩ = .ok [0, 2, 3, 4, 5, 1] from by decide +kernel, lift_ok, yields_pure]
  · refine ⟨[0, 1, 2, 3, 4, 5], [2, 3, 4, 5, 0, 1], [0, 3, 2, 5, 4, 1], by decide, ⟨4, rfl⟩, by unfold SameTrip; decide +kernel, ?_,
      by unfold SameTrip; decide +kernel⟩
    show (Prog.lift (cx _ _)).yields _
    rw [show cx [0, 1, 2, 3, 4, 5] [2, 3, 4, 5, 0, 1] = .ok [0, 3, 2, 5, 4, 1] from by decide +kernel, lift_ok, yields_pure]

example : SameTrip [0, 1, 2, 3, 4] [3, 2, 1, 0, 4] ∧ ¬ SameTrip [0, 1, 2, 3, 4] [0, 2, 1, 3, 4] := by
  unfold SameTrip; constructor <;> decide +kernel
example : (∀ a b, ltNat a b = true → ltNat b a = false) ∧ (∀ a b, ltNat a b = true ∨ a = b ∨ ltNat b a = true) ∧
    [3, 2, 1, 0, 4].Perm [0, 1, 2, 3, 4] := by
  simp only [ltNat, decide_eq_true_eq, decide_eq_false_iff_not]
  exact ⟨fun a b => by omega, fun a b => by omega, by decide⟩
/-- Offspring of two writings of one trip: the same trip, from the pivot on, forwards or backwards. -/
example : scx [0, 1, 2, 3, 4, 5] [0, 5, 4, 3, 2, 1] 2 = .ok [2, 1, 0, 5, 4, 3] ∧
    erx (fun _ l => l) [0, 1, 2, 3, 4, 5] [0, 5, 4, 3, 2, 1] 2 = .ok [2, 1, 0, 5, 4, 3] ∧
    erx (fun _ l => l.reverse) [0, 1, 2, 3, 4, 5] [0, 5, 4, 3, 2, 1] 2 = .ok [2, 3, 4, 5, 0, 1] := by decide +kernel

end RG.Props
