import Verif.SpecOffspring
import Verif.Props.Crossover
import Verif.Props.Partitions

/-!
# Property C74: the offspring of a crossover are exactly those its rule allows

C22–C28 show that an offspring obeys its rule. Here the converse is added: whatever the rule allows is returned (for a
suitable choice of what is random or left open), so the rules describe the operators completely.
-/

namespace RG.Props
open Prog
set_option linter.unusedSectionVars false
variable {G : Type} [DecidableEq G]

/-! ### Uniqueness -/

/-- In a sequence of distinct genes the follower of a gene is unique. -/
theorem follows_unique {g : List G} (hnd : g.Nodup) {a b c : G} (h1 : Follows g a b) (h2 : Follows g a c) : b = c := by
  obtain ⟨i, hi, ha, hb⟩ := h1
  obtain ⟨j, hj, ha', hc⟩ := h2
  have : i = j := (List.getElem?_inj hi hnd).1 (ha.trans ha'.symm)
  subst this
  rw [hb] at hc; exact Option.some.inj hc

/-- SCX's rule leaves no choice. -/
theorem scxStep_unique {p₁ p₂ : List G} (h1 : p₁.Nodup) (h2 : p₂.Nodup) {vis : List G} {cur a b : G}
    (ha : ScxStep p₁ p₂ vis cur a) (hb : ScxStep p₁ p₂ vis cur b) : a = b := by
  obtain ⟨s1, s2, f1, f2, ha⟩ := ha
  obtain ⟨t1, t2, g1, g2, hb⟩ := hb
  obtain rfl := follows_unique h1 f1 g1
  obtain rfl := follows_unique h2 f2 g2
  rcases ha with ⟨x, y, ha⟩ | ⟨x, y, ha⟩ | ⟨x, y, ha⟩ | ⟨x, y, ha⟩ <;>
    rcases hb with ⟨x', y', hb⟩ | ⟨x', y', hb⟩ | ⟨x', y', hb⟩ | ⟨x', y', hb⟩ <;>
    first
      | exact absurd x x'
      | exact absurd x' x
      | exact absurd y y'
      | exact absurd y' y
      | (rw [ha] at hb; exact Option.some.inj hb)
      | rw [ha, hb]

/-- A tour along a rule that leaves no choice is unique. -/
theorem tour_unique {step : List G → G → G → Prop} (hs : ∀ vis cur a b, step vis cur a → step vis cur b → a = b)
    {p : List G} {pivot : G} {o o' : List G} (h : Tour step p pivot o) (h' : Tour step p pivot o') : o = o' := by
  have hlen : o.length = o'.length := h.length.trans h'.length.symm
  have key : ∀ i, o.take (i + 1) = o'.take (i + 1) := by
    intro i
    induction i with
    | zero =>
      have e1 := h.head
      have e2 := h'.head
      cases o <;> cases o' <;> simp_all
    | succ i ih =>
      rw [List.take_add_one, List.take_add_one (l := o'), ih]
      congr 1
      by_cases hi : i + 1 < o.length
      · have hi' : i + 1 < o'.length := by omega
        have hc : o[i]? = o'[i]? := by
          have := congrArg (fun l => l[i]?) ih
          simpa [List.getElem?_take] using this
        have e1 := h.steps i _ _ (List.getElem?_eq_getElem (by omega)) (List.getElem?_eq_getElem hi)
        have e2 := h'.steps i _ _ (List.getElem?_eq_getElem (by omega)) (List.getElem?_eq_getElem hi')
        rw [List.getElem?_eq_getElem (by omega), List.getElem?_eq_getElem (by omega), Option.some.injEq] at hc
        rw [ih, hc] at e1
        rw [List.getElem?_eq_getElem hi, List.getElem?_eq_getElem hi', hs _ _ _ _ e1 e2]
      · rw [List.getElem?_eq_none (by omega), List.getElem?_eq_none (by omega)]
  have := key o.length
  rwa [List.take_of_length_le (by omega), List.take_of_length_le (by omega)] at this

/-- PMX's mapping leads to a single gene. -/
theorem pmxMaps_unique {p₁ p₂ : List G} (hnd : p₁.Nodup) {s e : Nat} {g a b : G} (ha : PmxMaps p₁ p₂ s e g a)
    (hb : PmxMaps p₁ p₂ s e g b) : a = b := by
  induction ha with
  | stop h =>
    cases hb with
    | stop _ => rfl
    | step h1 h2 h3 _ _ => exact absurd h3 (h _ h1 h2)
  | @step g g' r j h1 h2 h3 h4 _ ih =>
    cases hb with
    | stop h => exact absurd h3 (h _ h1 h2)
    | @step _ g2 _ k k1 k2 k3 k4 k5 =>
      have hj : j < p₁.length := (List.getElem?_eq_some_iff.1 h3).1
      have : j = k := (List.getElem?_inj hj hnd).1 (h3.trans k3.symm)
      subst this
      rw [h4] at k4
      obtain rfl := Option.some.inj k4
      exact ih k5

theorem pmxOffspring_unique {p₁ p₂ : List G} (hnd : p₁.Nodup) {s e : Nat} {o o' : List G}
    (h : PmxOffspring p₁ p₂ s e o) (h' : PmxOffspring p₁ p₂ s e o') : o = o' := by
  apply List.ext_getElem?
  intro i
  by_cases hi : i < p₁.length
  · by_cases hr : s ≤ i ∧ i < e
    · rw [h.inside i hr.1 hr.2, h'.inside i hr.1 hr.2]
    · obtain ⟨g, r, a1, a2, a3⟩ := h.outside i hi hr
      obtain ⟨g', r', b1, b2, b3⟩ := h'.outside i hi hr
      rw [a1] at b1
      obtain rfl := Option.some.inj b1
      rw [a2, b2, pmxMaps_unique hnd a3 b3]
  · rw [List.getElem?_eq_none (by have := h.length; omega), List.getElem?_eq_none (by have := h'.length; omega)]

/-- The starts of the cycles are the positions that are the least of their cycle. -/
theorem cxResult_starts {p₁ p₂ : List G} {starts : List Nat} {o : List G} (h : CxResult p₁ p₂ starts o) (x : Nat) :
    x ∈ starts ↔ x < p₁.length ∧ ∀ i, i < p₁.length → SameCycle p₁ p₂ x i → x ≤ i := by
  have huniq : ∀ s ∈ starts, ∀ t ∈ starts, SameCycle p₁ p₂ s t → s = t := by
    intro s hs t ht hc
    by_contra hne
    obtain ⟨i, hi, rfl⟩ := List.getElem_of_mem hs
    obtain ⟨j, hj, rfl⟩ := List.getElem_of_mem ht
    have hij : i ≠ j := by rintro rfl; exact hne rfl
    rcases Nat.lt_or_gt_of_ne hij with hlt | hlt
    · exact List.pairwise_iff_getElem.1 h.distinct i j hi hj hlt hc
    · exact List.pairwise_iff_getElem.1 h.distinct j i hj hi hlt (hc.symm _ _)
  constructor
  · intro hx
    refine ⟨h.bound x hx, fun i hi hc => ?_⟩
    obtain ⟨k, s, hk, hs, hsi, -⟩ := h.genes i hi
    have := huniq x hx s (List.mem_of_getElem? hk) (hc.trans _ _ _ (hsi.symm _ _))
    omega
  · rintro ⟨hx, hmin⟩
    obtain ⟨k, s, hk, hs, hsx, -⟩ := h.genes x hx
    have hm := List.mem_of_getElem? hk
    have := hmin s (h.bound s hm) (hsx.symm _ _)
    have : s = x := by omega
    exact this ▸ hm

theorem cxResult_unique {p₁ p₂ : List G} {st st' : List Nat} {o o' : List G} (h : CxResult p₁ p₂ st o)
    (h' : CxResult p₁ p₂ st' o') : o = o' := by
  have hst : st = st' := by
    have hperm : st.Perm st' := by
      rw [List.perm_ext_iff_of_nodup (h.ascending.imp ne_of_lt) (h'.ascending.imp ne_of_lt)]
      intro x
      rw [cxResult_starts h, cxResult_starts h']
    exact hperm.eq_of_pairwise (fun a b _ _ h1 h2 => by omega) h.ascending h'.ascending
  subst hst
  apply List.ext_getElem?
  intro i
  by_cases hi : i < p₁.length
  · obtain ⟨k, s, hk, -, hc, e⟩ := h.genes i hi
    obtain ⟨k', s', hk', -, hc', e'⟩ := h'.genes i hi
    have hs : s = s' := by
      have m1 := (cxResult_starts h s).1 (List.mem_of_getElem? hk)
      have m2 := (cxResult_starts h s').1 (List.mem_of_getElem? hk')
      have c1 := m1.2 s' m2.1 (hc.trans _ _ _ (hc'.symm _ _))
      have c2 := m2.2 s m1.1 (hc'.trans _ _ _ (hc.symm _ _))
      omega
    subst hs
    have hkk : k = k' := (List.getElem?_inj (List.getElem?_eq_some_iff.1 hk).1 (h.ascending.imp ne_of_lt)).1 (hk.trans hk'.symm)
    subst hkk
    rw [e, e']
  · rw [List.getElem?_eq_none (by have := h.length; omega), List.getElem?_eq_none (by have := h'.length; omega)]

/-- A list in which every gene is one the rule allows is a path. -/
theorem path_of_steps {step : List G → G → G → Prop} (rest vis : List G) (cur : G)
    (h : ∀ i a b, (cur :: rest)[i]? = some a → (cur :: rest)[i + 1]? = some b →
      step (((cur :: rest).take (i + 1)).reverse ++ vis) a b) : Path step vis cur rest := by
  induction rest generalizing vis cur with
  | nil => exact .nil _ _
  | cons next rest ih =>
    refine .cons (by simpa using h 0 cur next rfl rfl) (ih (cur :: vis) next fun i a b ha hb => ?_)
    have := h (i + 1) a b (by simpa using ha) (by simpa using hb)
    simpa using this

/-! ### C74 -/

/-- **C74** SCX returns, for a pivot, the only tour along its rule. -/
theorem C74_scx (p₁ p₂ : List G) (hnd : p₁.Nodup) (hp : p₂.Perm p₁) (hn : 2 ≤ p₁.length) (pivot : G) (hv : pivot ∈ p₁)
    (r : Res (List G)) : scx p₁ p₂ pivot = r ↔ ∃ off, r = .ok off ∧ Tour (ScxStep p₁ p₂) p₁ pivot off := by
  obtain ⟨off, e, h1, h2, h3⟩ := C23_scx p₁ p₂ hnd hp hn pivot hv
  have ht : Tour (ScxStep p₁ p₂) p₁ pivot off := ⟨h1.length_eq, h2, h3⟩
  rw [e]
  constructor
  · rintro rfl; exact ⟨off, rfl, ht⟩
  · rintro ⟨off', rfl, ht'⟩
    rw [tour_unique (step := ScxStep p₁ p₂) (fun _ _ _ _ h h' => scxStep_unique hnd (hp.nodup_iff.2 hnd) h h') ht ht']

/-- **C74** ERX returns, for a pivot, the tours along its rule, each for some iteration orders of the hash sets, and
nothing else. -/
theorem C74_erx (p₁ p₂ : List G) (hnd : p₁.Nodup) (hp : p₂.Perm p₁) (hn : 2 ≤ p₁.length) (pivot : G) (hv : pivot ∈ p₁)
    (r : Res (List G)) :
    (∃ ord : Nat → List G → List G, (∀ k l, (ord k l).Perm l) ∧ erx ord p₁ p₂ pivot = r) ↔
      ∃ off, r = .ok off ∧ Tour (ErxStep p₁ p₂) p₁ pivot off := by
  constructor
  · rintro ⟨ord, hord, rfl⟩
    obtain ⟨off, e, h1, h2, h3⟩ := C24_erx ord hord p₁ p₂ hnd hp hn pivot hv
    exact ⟨off, e, h1.length_eq, h2, h3⟩
  · rintro ⟨off, rfl, ht⟩
    have hhead := ht.head
    cases off with
    | nil => cases hhead
    | cons x rest =>
      simp only [List.head?_cons, Option.some.injEq] at hhead
      subst hhead
      have hl : rest.length = p₁.length - 1 := by have := ht.length; simp only [List.length_cons] at this; omega
      obtain ⟨map, em, hm⟩ := neighborLists_ok p₁ p₂ hp.length_eq.symm
      obtain ⟨ord, ho, e⟩ := erxLoop_complete p₁ p₂ hnd hp rest [] map x (by simp) (by simpa using hv) hm
        (by simp only [List.length_nil]; omega)
        (path_of_steps rest [] x fun i a b ha hb => by rw [List.append_nil]; exact ht.steps i a b ha hb)
      refine ⟨ord, ho, ?_⟩
      unfold erx
      rw [hl] at e
      simp only [decide_eq_true hp.length_eq.symm, Res.assert_true, Res.bind_ok, show ¬ p₁.length < 2 by omega, if_false,
        em, e, Res.pure_eq]

/-- **C74** PMX returns, for a range, the only offspring its rule allows. -/
theorem C74_pmx (p₁ p₂ : List G) (hnd : p₁.Nodup) (hp : p₂.Perm p₁) (hn : 2 ≤ p₁.length) (s e : Nat) (hse : s ≤ e)
    (he : e ≤ p₁.length) (fuel : Nat) (hf : p₁.length < fuel) (r : Res (List G)) :
    pmx fuel p₁ p₂ ⟨s, e⟩ = r ↔ ∃ off, r = .ok off ∧ PmxOffspring p₁ p₂ s e off := by
  obtain ⟨off, e', h1, h2, h3, -⟩ := C25_pmx p₁ p₂ hnd hp hn s e hse he
  have ho : PmxOffspring p₁ p₂ s e off := ⟨h1.length_eq, h2, h3⟩
  rw [e' fuel hf]
  constructor
  · rintro rfl; exact ⟨off, rfl, ho⟩
  · rintro ⟨off', rfl, ho'⟩
    rw [pmxOffspring_unique hnd ho ho']

/-- **C74** OX returns, for a non-empty range, the only offspring its rule allows. -/
theorem C74_ox (p₁ p₂ : List G) (hnd : p₁.Nodup) (hp : p₂.Perm p₁) (hn : 2 ≤ p₁.length) (s e : Nat) (hse : s < e)
    (he : e ≤ p₁.length) (fuel : Nat) (hf : p₁.length < fuel) (r : Res (List G)) :
    ox fuel p₁ p₂ ⟨s, e⟩ = r ↔ ∃ off, r = .ok off ∧ OxOffspring p₁ p₂ s e off := by
  obtain ⟨off, e', -, -, h3⟩ := C26_ox p₁ p₂ hnd hp hn s e hse he
  rw [e' fuel hf]
  constructor
  · rintro rfl; exact ⟨off, rfl, h3⟩
  · rintro ⟨off', rfl, ho'⟩
    rw [List.rotate_injective e (h3.trans ho'.symm)]

/-- **C74** CX returns the only offspring its rule allows. -/
theorem C74_cx (p₁ p₂ : List G) (hnd : p₁.Nodup) (hp : p₂.Perm p₁) (hn : 2 ≤ p₁.length) (r : Res (List G)) :
    cx p₁ p₂ = r ↔ ∃ off starts, r = .ok off ∧ CxResult p₁ p₂ starts off := by
  obtain ⟨off, starts, e, h, -⟩ := C27_cx p₁ p₂ hnd hp hn
  rw [e]
  constructor
  · rintro rfl; exact ⟨off, starts, rfl, h⟩
  · rintro ⟨off', starts', rfl, h'⟩
    rw [cxResult_unique h h']

theorem yields_res {α : Type} (r r' : Res α) : (Prog.lift r).yields r' ↔ r' = r := by cases r <;> exact Iff.rfl

/-- The pivot drawn from the first parent: every gene of it, and nothing else. -/
theorem yields_pivot (p : List G) (hn : p ≠ []) (f : G → Prog (List G)) (r : Res (List G)) :
    (do let pivot ← choose p
        let pivot ← Prog.lift (Res.ofOption pivot)
        f pivot : Prog (List G)).yields r ↔ ∃ pivot ∈ p, (f pivot).yields r := by
  have hpos : 0 < p.length := List.length_pos_of_ne_nil hn
  have hemp : p.isEmpty = false := by cases p with
    | nil => exact absurd rfl hn
    | cons _ _ => rfl
  unfold choose
  simp only [hemp, Bool.false_eq_true, if_false]
  rw [bind_assoc, yields_bind]
  simp only [yields_rangeExcl, bind_pure_left]
  constructor
  · rintro (⟨i, h, h2⟩ | ⟨h, -⟩ | ⟨h, -⟩)
    · rcases h with ⟨-, h⟩ | ⟨j, -, hj, h⟩
      · cases h
      · cases h
        rw [List.getElem?_eq_getElem hj] at h2
        simp only [Res.ofOption_some, lift_ok, bind_pure_left] at h2
        exact ⟨p[i], List.getElem_mem hj, h2⟩
    · rcases h with ⟨h, -⟩ | ⟨j, -, hj, h⟩
      · omega
      · cases h
    · rcases h with ⟨-, h⟩ | ⟨j, -, hj, h⟩
      · cases h
      · cases h
  · rintro ⟨g, hg, h⟩
    obtain ⟨i, hi, rfl⟩ := List.getElem_of_mem hg
    refine Or.inl ⟨i, Or.inr ⟨i, by omega, hi, rfl⟩, ?_⟩
    rw [List.getElem?_eq_getElem hi]
    simpa only [Res.ofOption_some, lift_ok, bind_pure_left] using h

/-- The range drawn for PMX and OX: every non-empty range of positions, and nothing else. -/
theorem yields_range (n : Nat) (hn : n ≠ 0) (f : URange → Prog (List G)) (r : Res (List G)) :
    (randomRange n >>= f).yields r ↔ ∃ s e, s < e ∧ e ≤ n ∧ (f ⟨s, e⟩).yields r := by
  have h := fun x => (C16_random_range n x).2 hn
  rw [yields_bind]
  constructor
  · rintro (⟨a, ha, hr⟩ | ⟨ha, -⟩ | ⟨ha, -⟩)
    · obtain ⟨s, e, he, h1, h2⟩ := (h _).1 ha
      cases he
      exact ⟨s, e, h1, h2, hr⟩
    · obtain ⟨s, e, he, -⟩ := (h _).1 ha; cases he
    · obtain ⟨s, e, he, -⟩ := (h _).1 ha; cases he
  · rintro ⟨s, e, h1, h2, hr⟩
    exact Or.inl ⟨⟨s, e⟩, (h _).2 ⟨s, e, rfl, h1, h2⟩, hr⟩

/-- Specification: the offspring the rule of a strategy allows for the parents `p₁` and `p₂`. -/
def AllowedOffspring (p₁ p₂ : List G) (off : List G) : CrossoverStrategy → Prop
  | .generalizedPartition2 => ∃ parts order : List (List G), CommonParts p₁ p₂ parts ∧ order.Perm parts ∧ off = order.flatten
  | .sequentialConstructive => ∃ pivot ∈ p₁, Tour (ScxStep p₁ p₂) p₁ pivot off
  | .edgeRecombination => ∃ pivot ∈ p₁, Tour (ErxStep p₁ p₂) p₁ pivot off
  | .partiallyMapped => ∃ s e, s < e ∧ e ≤ p₁.length ∧ PmxOffspring p₁ p₂ s e off
  | .order => ∃ s e, s < e ∧ e ≤ p₁.length ∧ OxOffspring p₁ p₂ s e off
  | .cycle => ∃ starts, CxResult p₁ p₂ starts off
  | .singlePoint => ∃ k, k < p₁.length ∧ off = p₁.take k ++ p₂.drop k

/-- **C74** The possible results of `CrossoverStrategy::crossover` on permutations of at least three distinct, totally
ordered genes (over all random draws and all iteration orders of the hash sets) are exactly the offspring the rule of the
strategy allows. -/
theorem C74_strategy (lt : G → G → Bool) (hasymm : ∀ a b, lt a b = true → lt b a = false)
    (htotal : ∀ a b, lt a b = true ∨ a = b ∨ lt b a = true) (st : CrossoverStrategy) (p₁ p₂ : List G) (hnd : p₁.Nodup)
    (hp : p₂.Perm p₁) (hn : 3 ≤ p₁.length) (fuel : Nat) (hf : p₁.length < fuel) (r : Res (List G)) :
    (∃ ord : Nat → List G → List G, (∀ k l, (ord k l).Perm l) ∧ (st.crossover lt ord fuel p₁ p₂).yields r) ↔
      ∃ off, r = .ok off ∧ AllowedOffspring p₁ p₂ off st := by
  have hne : p₁ ≠ [] := by rintro rfl; simp at hn
  have hid : ∃ ord : Nat → List G → List G, ∀ k l, (ord k l).Perm l := ⟨fun _ l => l, fun _ _ => List.Perm.refl _⟩
  obtain ⟨ord₀, hord₀⟩ := hid
  cases st with
  | generalizedPartition2 =>
    obtain ⟨parts, e, hc⟩ := (C75_partitions lt hasymm htotal p₁ p₂ hnd hp hn _).1 rfl
    constructor
    · rintro ⟨ord, -, h⟩
      obtain ⟨parts', e', h'⟩ := C22_gpx2 lt p₁ p₂ (fun _ _ partitions => do
        let i ← Prog.rangeExcl 0 partitions.length
        pure (i, ())) (fun s last ps hps => by
          rw [always_bind]
          rw [always_rangeExcl]
          refine ⟨List.length_pos_of_ne_nil hps, fun i _ hi => ?_⟩
          rw [always_pure]; exact hi) ()
      rw [e] at e'; cases e'
      obtain ⟨off, rfl, ⟨order, ho, rfl⟩, -⟩ := h' r h
      exact ⟨_, rfl, parts, order, hc, ho, rfl⟩
    · rintro ⟨off, rfl, parts', order, hc', ho, rfl⟩
      obtain rfl := commonParts_unique hc hc'
      refine ⟨ord₀, hord₀, ?_⟩
      exact C22_any_order lt p₁ p₂ (fun _ _ partitions => do
        let i ← Prog.rangeExcl 0 partitions.length
        pure (i, ())) (fun s last ps i hi => ⟨(), by
          rw [yields_bind_ok]
          exact ⟨i, (yields_rangeExcl _ _ _).2 (Or.inr ⟨i, by omega, hi, rfl⟩), by rw [yields_pure]⟩⟩) () parts order e ho
  | sequentialConstructive =>
    unfold CrossoverStrategy.crossover AllowedOffspring
    simp only [yields_pivot p₁ hne, yields_res]
    constructor
    · rintro ⟨ord, -, pivot, hv, rfl⟩
      obtain ⟨off, e, h⟩ := (C74_scx p₁ p₂ hnd hp (by omega) pivot hv _).1 rfl
      exact ⟨off, e, pivot, hv, h⟩
    · rintro ⟨off, rfl, pivot, hv, h⟩
      exact ⟨ord₀, hord₀, pivot, hv, ((C74_scx p₁ p₂ hnd hp (by omega) pivot hv _).2 ⟨off, rfl, h⟩).symm⟩
  | edgeRecombination =>
    unfold CrossoverStrategy.crossover AllowedOffspring
    simp only [yields_pivot p₁ hne, yields_res]
    constructor
    · rintro ⟨ord, hord, pivot, hv, rfl⟩
      obtain ⟨off, e, h⟩ := (C74_erx p₁ p₂ hnd hp (by omega) pivot hv _).1 ⟨ord, hord, rfl⟩
      exact ⟨off, e, pivot, hv, h⟩
    · rintro ⟨off, rfl, pivot, hv, h⟩
      obtain ⟨ord, hord, e⟩ := (C74_erx p₁ p₂ hnd hp (by omega) pivot hv _).2 ⟨off, rfl, h⟩
      exact ⟨ord, hord, pivot, hv, e.symm⟩
  | partiallyMapped =>
    unfold CrossoverStrategy.crossover AllowedOffspring
    simp only [yields_range p₁.length (by omega), yields_res]
    constructor
    · rintro ⟨ord, -, s, e, h1, h2, rfl⟩
      obtain ⟨off, e', h⟩ := (C74_pmx p₁ p₂ hnd hp (by omega) s e h1.le h2 fuel hf _).1 rfl
      exact ⟨off, e', s, e, h1, h2, h⟩
    · rintro ⟨off, rfl, s, e, h1, h2, h⟩
      exact ⟨ord₀, hord₀, s, e, h1, h2, ((C74_pmx p₁ p₂ hnd hp (by omega) s e h1.le h2 fuel hf _).2 ⟨off, rfl, h⟩).symm⟩
  | order =>
    unfold CrossoverStrategy.crossover AllowedOffspring
    simp only [yields_range p₁.length (by omega), yields_res]
    constructor
    · rintro ⟨ord, -, s, e, h1, h2, rfl⟩
      obtain ⟨off, e', h⟩ := (C74_ox p₁ p₂ hnd hp (by omega) s e h1 h2 fuel hf _).1 rfl
      exact ⟨off, e', s, e, h1, h2, h⟩
    · rintro ⟨off, rfl, s, e, h1, h2, h⟩
      exact ⟨ord₀, hord₀, s, e, h1, h2, ((C74_ox p₁ p₂ hnd hp (by omega) s e h1 h2 fuel hf _).2 ⟨off, rfl, h⟩).symm⟩
  | cycle =>
    unfold CrossoverStrategy.crossover AllowedOffspring
    simp only [yields_res]
    constructor
    · rintro ⟨ord, -, rfl⟩
      obtain ⟨off, starts, e, h⟩ := (C74_cx p₁ p₂ hnd hp (by omega) _).1 rfl
      exact ⟨off, e, starts, h⟩
    · rintro ⟨off, rfl, starts, h⟩
      exact ⟨ord₀, hord₀, ((C74_cx p₁ p₂ hnd hp (by omega) _).2 ⟨off, starts, rfl, h⟩).symm⟩
  | singlePoint =>
    unfold AllowedOffspring
    simp only [C30_single_point lt _ fuel p₁ p₂ hp.length_eq.symm hne]
    constructor
    · rintro ⟨ord, -, k, hk, rfl⟩; exact ⟨_, rfl, k, hk, rfl⟩
    · rintro ⟨off, rfl, k, hk, rfl⟩; exact ⟨ord₀, hord₀, k, hk, rfl⟩

/-- **C74** GPX2 keeps every common edge inside the first parent: two consecutive genes of it that are neighbours in the
second parent are consecutive in every offspring. -/
theorem C74_gpx2_edges (lt : G → G → Bool) (hasymm : ∀ a b, lt a b = true → lt b a = false)
    (htotal : ∀ a b, lt a b = true ∨ a = b ∨ lt b a = true) (ord : Nat → List G → List G) (fuel : Nat) (p₁ p₂ : List G)
    (hnd : p₁.Nodup) (hp : p₂.Perm p₁) (hn : 3 ≤ p₁.length) (off : List G)
    (h : (CrossoverStrategy.generalizedPartition2.crossover lt ord fuel p₁ p₂).yields (.ok off)) (a b : G)
    (hab : [a, b] <:+: p₁) (ha : Adj p₂ a b) : [a, b] <:+: off ∨ [b, a] <:+: off := by
  obtain ⟨off', e, parts, order, hc, ho, rfl⟩ := (C74_strategy lt hasymm htotal .generalizedPartition2 p₁ p₂ hnd hp hn
    (p₁.length + 1) (by omega) (.ok off)).1 ⟨fun _ l => l, fun _ _ => List.Perm.refl _, h⟩
  cases e
  obtain ⟨p, hpm, hi⟩ := C75_edges lt hasymm htotal p₁ p₂ hnd hp hn parts
    ((C75_partitions lt hasymm htotal p₁ p₂ hnd hp hn _).2 ⟨parts, rfl, hc⟩) a b hab ha
  obtain ⟨l, r, rfl⟩ := List.append_of_mem (ho.mem_iff.2 hpm)
  have : p <:+: (l ++ p :: r).flatten := ⟨l.flatten, r.flatten, by simp⟩
  exact hi.imp (fun h => h.trans this) fun h => h.trans this

-- the hypotheses are met by the parents of the documentation
example : docP₁.Nodup ∧ docP₂.Perm docP₁ ∧ 3 ≤ docP₁.length := ⟨doc_perm.1, doc_perm.2, by decide⟩
-- the iteration order of the hash sets matters: ERX can return different tours for the same pivot
example : erx (fun _ l => l) [0, 1, 2, 3] [0, 1, 2, 3] 0 = .ok [0, 3, 2, 1] ∧
    erx (fun _ l => l.reverse) [0, 1, 2, 3] [0, 1, 2, 3] 0 = .ok [0, 1, 2, 3] := by decide +kernel

end RG.Props
