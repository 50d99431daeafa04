import Verif.Proofs.Ox
import Mathlib.Data.Finset.Card

/-! Helper lemmas: CX. -/

namespace RG
set_option linter.unusedSectionVars false
variable {G : Type} [DecidableEq G]

theorem CxLink.intro {p1 p2 : List G} {i j : Nat} (hi : i < p1.length) (hj : j < p2.length) (h : p1[i] = p2[j]) :
    CxLink p1 p2 i j := ⟨p1[i], by simp [hi], by rw [h]; simp [hj]⟩

theorem CxLink.lt {p1 p2 : List G} {i j : Nat} (h : CxLink p1 p2 i j) : i < p1.length ∧ j < p2.length := by
  obtain ⟨g, h1, h2⟩ := h
  rw [List.getElem?_eq_some_iff] at h1 h2
  exact ⟨h1.1, h2.1⟩

theorem count_false_set (vis : List Bool) (i : Nat) (h : vis[i]? = some false) :
    (vis.set i true).count false + 1 = vis.count false := by
  obtain ⟨hi, he⟩ := List.getElem?_eq_some_iff.1 h
  rw [List.count_set hi]
  have : 0 < vis.count false := List.count_pos_iff.2 (he ▸ List.getElem_mem hi)
  simp [he]; omega

/-- What one cycle of CX has done. -/
structure CxPost (p1 p2 : List G) (fp : Bool) (n : Nat) (off : List G) (vis : List Bool) (i : Nat) (off' : List G)
    (vis' : List Bool) : Prop where
  len_off : off'.length = n
  len_vis : vis'.length = n
  mono : ∀ j : Nat, vis[j]? = some true → vis'[j]? = some true
  keep : ∀ j : Nat, vis[j]? = some true → off'[j]? = off[j]?
  new : ∀ j : Nat, vis[j]? = some false → vis'[j]? = some true → off'[j]? = (if fp then p1[j]? else p2[j]?) ∧
    SameCycle p1 p2 i j ∧ ∃ l, vis'[l]? = some true ∧ (if fp then CxLink p1 p2 j l else CxLink p1 p2 l j)
  start : vis'[i]? = some true
  count : vis'.count false ≤ vis.count false
  progress : vis[i]? = some false → vis'.count false < vis.count false

theorem cxCycle_spec (p1 p2 : List G) (fp : Bool) (n : Nat) (h1 : p1.length = n) (h2 : p2.length = n) (fuel : Nat)
    (off : List G) (vis : List Bool) (i : Nat) (ho : off.length = n) (hv : vis.length = n) (hi : i < n)
    (hf : vis.count false < fuel) :
    (cxCycle p1 p2 fp fuel off vis i = .panic ∧ ∃ j, j < n ∧ ¬ (∃ l, if fp then CxLink p1 p2 j l else CxLink p1 p2 l j)) ∨
    ∃ off' vis', cxCycle p1 p2 fp fuel off vis i = .ok (off', vis') ∧ CxPost p1 p2 fp n off vis i off' vis' := by
  induction fuel generalizing off vis i with
  | zero => omega
  | succ fuel ih =>
    unfold cxCycle
    simp only [index_ok vis i (by omega), Res.bind_ok, Res.pure_eq]
    cases hvi : vis[i]'(by omega) with
    | true =>
      right
      refine ⟨off, vis, by simp, ⟨ho, hv, fun _ h => h, fun _ _ => rfl, ?_, ?_, le_rfl, ?_⟩⟩
      · intro j h h'; rw [h] at h'; simp at h'
      · rw [List.getElem?_eq_getElem (by omega), hvi]
      · intro h; rw [List.getElem?_eq_getElem (by omega), hvi] at h; simp at h
    | false =>
      have hvf : vis[i]? = some false := by rw [List.getElem?_eq_getElem (by omega), hvi]
      have hc := count_false_set vis i hvf
      -- one step to position l
      have key : ∀ (x : G) (l : Nat), l < n → (if fp then p1[i]? else p2[i]?) = some x →
          (if fp then CxLink p1 p2 i l else CxLink p1 p2 l i) →
          (cxCycle p1 p2 fp fuel (off.set i x) (vis.set i true) l = .panic ∧
            ∃ j, j < n ∧ ¬ (∃ l, if fp then CxLink p1 p2 j l else CxLink p1 p2 l j)) ∨
          ∃ off' vis', cxCycle p1 p2 fp fuel (off.set i x) (vis.set i true) l = .ok (off', vis') ∧
            CxPost p1 p2 fp n off vis i off' vis' := by
        intro x l hl hx hlink
        rcases ih (off.set i x) (vis.set i true) l (by simp [ho]) (by simp [hv]) hl (by omega) with h | ⟨off', vis', he, hp⟩
        · exact Or.inl h
        · right
          refine ⟨off', vis', he, ?_⟩
          have hset : ∀ j, j ≠ i → (vis.set i true)[j]? = vis[j]? := fun j hj => List.getElem?_set_ne (Ne.symm hj)
          have hself : (vis.set i true)[i]? = some true := by rw [List.getElem?_set_self (by omega)]
          have hcyc : SameCycle p1 p2 i l := by
            cases fp with
            | true => exact Relation.EqvGen.rel _ _ (by simpa using hlink)
            | false => exact Relation.EqvGen.symm _ _ (Relation.EqvGen.rel _ _ (by simpa using hlink))
          refine ⟨hp.len_off, hp.len_vis, ?_, ?_, ?_, ?_, ?_, ?_⟩
          · intro j hj
            by_cases hji : j = i
            · subst hji; exact hp.mono j hself
            · exact hp.mono j (by rw [hset j hji]; exact hj)
          · intro j hj
            have hji : j ≠ i := by rintro rfl; rw [hvf] at hj; simp at hj
            rw [hp.keep j (by rw [hset j hji]; exact hj), List.getElem?_set_ne (Ne.symm hji)]
          · intro j hj hj'
            by_cases hji : j = i
            · subst hji
              refine ⟨?_, Relation.EqvGen.refl _, l, hp.start, hlink⟩
              rw [hp.keep j hself, List.getElem?_set_self (by omega), hx]
            · obtain ⟨a, b, c⟩ := hp.new j (by rw [hset j hji]; exact hj) hj'
              exact ⟨a, Relation.EqvGen.trans _ _ _ hcyc b, c⟩
          · exact hp.mono i hself
          · have := hp.count; omega
          · intro _; have := hp.count; omega
      cases fp with
      | true =>
        simp only [Bool.not_false, if_true, setAt_ok vis i true (by omega), index_ok p1 i (by omega), Res.bind_ok,
          setAt_ok off i _ (show i < off.length by omega)]
        cases hfp : findPosition (p1[i]'(by omega)) p2 with
        | none =>
          left
          refine ⟨by simp [Res.ofOption], i, hi, ?_⟩
          rintro ⟨l, hl⟩
          obtain ⟨g, hg1, hg2⟩ := hl
          rw [List.getElem?_eq_getElem (by omega), Option.some_inj] at hg1
          exact findPosition_none.1 hfp (hg1 ▸ List.mem_of_getElem? hg2)
        | some l =>
          obtain ⟨hl, he⟩ := findPosition_some hfp
          have := key (p1[i]'(by omega)) l (by omega) (by simp [List.getElem?_eq_getElem (show i < p1.length by omega)])
            (by simpa using CxLink.intro (by omega) hl he.symm)
          simpa [Res.ofOption] using this
      | false =>
        simp only [Bool.not_false, if_true, Bool.false_eq_true, if_false, setAt_ok vis i true (by omega),
          index_ok p2 i (by omega), Res.bind_ok, setAt_ok off i _ (show i < off.length by omega)]
        cases hfp : findPosition (p2[i]'(by omega)) p1 with
        | none =>
          left
          refine ⟨by simp [Res.ofOption], i, hi, ?_⟩
          rintro ⟨l, hl⟩
          obtain ⟨g, hg1, hg2⟩ := hl
          rw [List.getElem?_eq_getElem (by omega), Option.some_inj] at hg2
          exact findPosition_none.1 hfp (hg2 ▸ List.mem_of_getElem? hg1)
        | some l =>
          obtain ⟨hl, he⟩ := findPosition_some hfp
          have := key (p2[i]'(by omega)) l (by omega) (by simp [List.getElem?_eq_getElem (show i < p2.length by omega)])
            (by simpa using CxLink.intro hl (by omega) he)
          simpa [Res.ofOption] using this

theorem findIdx_unvisited (vis : List Bool) :
    (vis.findIdx? (fun x => !x) = none ∧ ∀ j, j < vis.length → vis[j]? = some true) ∨
    ∃ c, vis.findIdx? (fun x => !x) = some c ∧ vis[c]? = some false ∧ ∀ j, j < c → vis[j]? = some true := by
  cases h : vis.findIdx? (fun x => !x) with
  | none =>
    left
    rw [List.findIdx?_eq_none_iff] at h
    refine ⟨rfl, fun j hj => ?_⟩
    have := h _ (List.getElem_mem hj)
    rw [List.getElem?_eq_getElem hj]; simpa using this
  | some c =>
    right
    rw [List.findIdx?_eq_some_iff_getElem] at h
    obtain ⟨hc, h1, h2⟩ := h
    refine ⟨c, rfl, by rw [List.getElem?_eq_getElem hc]; simpa using h1, fun j hj => ?_⟩
    rw [List.getElem?_eq_getElem (by omega)]
    simpa using h2 j hj

/-- CX never runs forever, whatever the genomes. -/
theorem cxLoop_total (p1 p2 : List G) (n : Nat) (h1 : p1.length = n) (h2 : p2.length = n) (fuel : Nat) (off : List G)
    (vis : List Bool) (c : Nat) (fp : Bool) (ho : off.length = n) (hv : vis.length = n) (hc : vis[c]? = some false)
    (hf : vis.count false < fuel) : cxLoop p1 p2 n fuel off vis c fp ≠ .diverge := by
  induction fuel generalizing off vis c fp with
  | zero => omega
  | succ fuel ih =>
    have hcn : c < n := by rw [← hv]; exact (List.getElem?_eq_some_iff.1 hc).1
    unfold cxLoop
    rw [if_pos hcn]
    rcases cxCycle_spec p1 p2 fp n h1 h2 (n + 1) off vis c ho hv hcn
      (by have := List.count_le_length (a := false) (l := vis); omega) with ⟨he, -⟩ | ⟨off', vis', he, hp⟩
    · rw [he]; simp
    · simp only [he, Res.bind_ok]
      rcases findIdx_unvisited vis' with ⟨h3, -⟩ | ⟨c', h3, h4, -⟩
      · simp [h3]
      · simp only [h3]
        exact ih off' vis' c' (!fp) hp.len_off hp.len_vis h4 (by have := hp.progress hc; omega)

/-- A set of positions closed under following the links one way is closed the other way too. -/
theorem closed_back {a b : List G} (ha : a.Nodup) (hb : b.Nodup) (V : Finset Nat) (hVa : ∀ x ∈ V, x < a.length)
    (hVb : ∀ x ∈ V, x < b.length) (h : ∀ x ∈ V, ∃ y ∈ V, a[x]? = b[y]?) : ∀ y ∈ V, ∃ x ∈ V, a[x]? = b[y]? := by
  have inj : ∀ {l : List G}, l.Nodup → (∀ x ∈ V, x < l.length) → Set.InjOn (fun x : Nat => l[x]?) (V : Set Nat) := by
    intro l hl hV x hx y hy hxy
    have hx' := hV x hx; have hy' := hV y hy
    simp only [List.getElem?_eq_getElem hx', List.getElem?_eq_getElem hy', Option.some_inj] at hxy
    exact (hl.getElem_inj_iff).1 hxy
  have hsub : V.image (fun x => a[x]?) ⊆ V.image (fun x => b[x]?) := by
    intro g hg
    obtain ⟨x, hx, rfl⟩ := Finset.mem_image.1 hg
    obtain ⟨y, hy, he⟩ := h x hx
    exact Finset.mem_image.2 ⟨y, hy, he.symm⟩
  have heq := Finset.eq_of_subset_of_card_le hsub (by
    rw [Finset.card_image_of_injOn (inj ha hVa), Finset.card_image_of_injOn (inj hb hVb)])
  intro y hy
  have : b[y]? ∈ V.image (fun x => a[x]?) := by rw [heq]; exact Finset.mem_image_of_mem _ hy
  obtain ⟨x, hx, he⟩ := Finset.mem_image.1 this
  exact ⟨x, hx, he⟩

/-- The invariant of the outer loop of CX: `starts` are the starts of the cycles done so far. -/
structure CxInv (p1 p2 : List G) (starts : List Nat) (off : List G) (vis : List Bool) : Prop where
  len_off : off.length = p1.length
  len_vis : vis.length = p1.length
  closed : ∀ i j : Nat, CxLink p1 p2 i j → (vis[i]? = some true ↔ vis[j]? = some true)
  visited : ∀ s ∈ starts, vis[s]? = some true
  least : ∀ s ∈ starts, ∀ j : Nat, vis[j]? = some false → s ≤ j
  ascending : starts.Pairwise (· < ·)
  distinct : starts.Pairwise (fun s t => ¬ SameCycle p1 p2 s t)
  genes : ∀ i : Nat, vis[i]? = some true → ∃ k s, starts[k]? = some s ∧ s ≤ i ∧ SameCycle p1 p2 s i ∧
    off[i]? = if k % 2 = 0 then p1[i]? else p2[i]?

theorem CxInv.closed' {p1 p2 : List G} {starts : List Nat} {off : List G} {vis : List Bool}
    (h : CxInv p1 p2 starts off vis) {i j : Nat} (hij : SameCycle p1 p2 i j) :
    vis[i]? = some true ↔ vis[j]? = some true := by
  unfold SameCycle at hij
  induction hij with
  | rel x y h1 => exact h.closed x y h1
  | refl x => exact Iff.rfl
  | symm x y _ ih => exact ih.symm
  | trans x y z _ _ ih1 ih2 => exact ih1.trans ih2

theorem CxInv.step {p1 p2 : List G} (hnd : p1.Nodup) (hp : p2.Perm p1) {starts : List Nat} {off off' : List G}
    {vis vis' : List Bool} (h : CxInv p1 p2 starts off vis) (c : Nat) (fp : Bool) (hfp : fp = decide (starts.length % 2 = 0))
    (hc : vis[c]? = some false) (hcl : ∀ j, j < c → vis[j]? = some true)
    (hq : CxPost p1 p2 fp p1.length off vis c off' vis') : CxInv p1 p2 (starts ++ [c]) off' vis' := by
  have hlen := hp.length_eq
  have hcase : ∀ j : Nat, vis'[j]? = some true → vis[j]? = some true ∨ vis[j]? = some false := by
    intro j hj
    have : j < vis.length := by
      rw [h.len_vis, ← hq.len_vis]; exact (List.getElem?_eq_some_iff.1 hj).1
    rw [List.getElem?_eq_getElem this]
    cases vis[j] <;> simp
  have hnew : ∀ j : Nat, vis[j]? = some false → c ≤ j := by
    intro j hj
    by_contra hlt
    rw [hcl j (by omega)] at hj; simp at hj
  -- the marked positions are closed one way, and therefore both ways
  have hV : ∀ x : Nat, x ∈ (Finset.range p1.length).filter (fun x => vis'[x]? = some true) ↔ vis'[x]? = some true := by
    intro x
    rw [Finset.mem_filter, Finset.mem_range]
    exact ⟨fun h => h.2, fun h => ⟨hq.len_vis ▸ (List.getElem?_eq_some_iff.1 h).1, h⟩⟩
  have hlt : ∀ x : Nat, vis'[x]? = some true → x < p1.length := fun x hx =>
    hq.len_vis ▸ (List.getElem?_eq_some_iff.1 hx).1
  have link_r : ∀ {i j j'}, CxLink p1 p2 i j → CxLink p1 p2 i j' → j = j' := by
    intro i j j' h1 h2
    obtain ⟨g, a, b⟩ := h1; obtain ⟨g', a', b'⟩ := h2
    rw [a, Option.some_inj] at a'; subst a'
    obtain ⟨hj, b⟩ := List.getElem?_eq_some_iff.1 b
    obtain ⟨hj', b'⟩ := List.getElem?_eq_some_iff.1 b'
    exact ((hp.nodup_iff.2 hnd).getElem_inj_iff).1 (b.trans b'.symm)
  have link_l : ∀ {i i' j}, CxLink p1 p2 i j → CxLink p1 p2 i' j → i = i' := by
    intro i i' j h1 h2
    obtain ⟨g, a, b⟩ := h1; obtain ⟨g', a', b'⟩ := h2
    rw [b, Option.some_inj] at b'; subst b'
    obtain ⟨hj, a⟩ := List.getElem?_eq_some_iff.1 a
    obtain ⟨hj', a'⟩ := List.getElem?_eq_some_iff.1 a'
    exact (hnd.getElem_inj_iff).1 (a.trans a'.symm)
  have exists_r : ∀ i, i < p1.length → ∃ j, CxLink p1 p2 i j := by
    intro i hi
    obtain ⟨j, hj, he⟩ := List.getElem_of_mem (hp.mem_iff.2 (List.getElem_mem hi))
    exact ⟨j, CxLink.intro hi hj he.symm⟩
  have exists_l : ∀ j, j < p2.length → ∃ i, CxLink p1 p2 i j := by
    intro j hj
    obtain ⟨i, hi, he⟩ := List.getElem_of_mem (hp.mem_iff.1 (List.getElem_mem hj))
    exact ⟨i, CxLink.intro hi hj he⟩
  have oneway : (∀ i j, CxLink p1 p2 i j → vis'[i]? = some true → vis'[j]? = some true) ∨
      (∀ i j, CxLink p1 p2 i j → vis'[j]? = some true → vis'[i]? = some true) := by
    cases fp with
    | true =>
      left
      intro i j hij hi
      rcases hcase i hi with hv | hv
      · exact hq.mono j ((h.closed i j hij).1 hv)
      · obtain ⟨-, -, l, hl, hll⟩ := hq.new i hv hi
        simp only [if_true] at hll
        rwa [link_r hij hll]
    | false =>
      right
      intro i j hij hj
      rcases hcase j hj with hv | hv
      · exact hq.mono i ((h.closed i j hij).2 hv)
      · obtain ⟨-, -, l, hl, hll⟩ := hq.new j hv hj
        simp only [Bool.false_eq_true, if_false] at hll
        rwa [link_l hij hll]
  have hclosed : ∀ i j : Nat, CxLink p1 p2 i j → (vis'[i]? = some true ↔ vis'[j]? = some true) := by
    rcases oneway with hw | hw
    · intro i j hij
      refine ⟨hw i j hij, fun hj => ?_⟩
      obtain ⟨x, hx, he⟩ := closed_back hnd (hp.nodup_iff.2 hnd)
        ((Finset.range p1.length).filter (fun x => vis'[x]? = some true))
        (fun x hx => hlt x ((hV x).1 hx)) (fun x hx => hlen ▸ hlt x ((hV x).1 hx))
        (fun x hx => by
          obtain ⟨y, hy⟩ := exists_r x (hlt x ((hV x).1 hx))
          refine ⟨y, (hV y).2 (hw x y hy ((hV x).1 hx)), ?_⟩
          obtain ⟨g, a, b⟩ := hy; rw [a, b]) j ((hV j).2 hj)
      have hxj : CxLink p1 p2 x j := by
        obtain ⟨g, a, b⟩ := hij; exact ⟨g, by rw [he, b], b⟩
      rw [link_l hij hxj]; exact (hV x).1 hx
    · intro i j hij
      refine ⟨fun hi => ?_, hw i j hij⟩
      obtain ⟨x, hx, he⟩ := closed_back (hp.nodup_iff.2 hnd) hnd
        ((Finset.range p1.length).filter (fun x => vis'[x]? = some true))
        (fun x hx => hlen ▸ hlt x ((hV x).1 hx)) (fun x hx => hlt x ((hV x).1 hx))
        (fun x hx => by
          obtain ⟨y, hy⟩ := exists_l x (hlen ▸ hlt x ((hV x).1 hx))
          refine ⟨y, (hV y).2 (hw y x hy ((hV x).1 hx)), ?_⟩
          obtain ⟨g, a, b⟩ := hy; rw [a, b]) i ((hV i).2 hi)
      have hxj : CxLink p1 p2 i x := by
        obtain ⟨g, a, b⟩ := hij; exact ⟨g, a, by rw [he, a]⟩
      rw [link_r hij hxj]; exact (hV x).1 hx
  refine ⟨hq.len_off, hq.len_vis, hclosed, ?_, ?_, ?_, ?_, ?_⟩
  · intro s hs
    rcases List.mem_append.1 hs with hs | hs
    · exact hq.mono s (h.visited s hs)
    · rw [List.mem_singleton.1 hs]; exact hq.start
  · intro s hs j hj
    have hjf : vis[j]? = some false := by
      have : j < vis.length := by rw [h.len_vis, ← hq.len_vis]; exact (List.getElem?_eq_some_iff.1 hj).1
      cases hb : vis[j] with
      | false => rw [List.getElem?_eq_getElem this, hb]
      | true =>
        have := hq.mono j (by rw [List.getElem?_eq_getElem this, hb])
        rw [this] at hj; simp at hj
    rcases List.mem_append.1 hs with hs | hs
    · exact h.least s hs j hjf
    · rw [List.mem_singleton.1 hs]; exact hnew j hjf
  · rw [List.pairwise_append]
    refine ⟨h.ascending, by simp, ?_⟩
    intro s hs t ht
    rw [List.mem_singleton.1 ht]
    have := h.least s hs c hc
    have hne : s ≠ c := by rintro rfl; rw [h.visited s hs] at hc; simp at hc
    omega
  · rw [List.pairwise_append]
    refine ⟨h.distinct, by simp, ?_⟩
    intro s hs t ht hcy
    rw [List.mem_singleton.1 ht] at hcy
    rw [(h.closed' hcy).1 (h.visited s hs)] at hc; simp at hc
  · intro i hi
    rcases hcase i hi with hv | hv
    · obtain ⟨k, s, hk, h1, h2, h3⟩ := h.genes i hv
      refine ⟨k, s, ?_, h1, h2, by rw [hq.keep i hv, h3]⟩
      rw [List.getElem?_append_left (List.getElem?_eq_some_iff.1 hk).1, hk]
    · obtain ⟨h1, h2, -⟩ := hq.new i hv hi
      refine ⟨starts.length, c, by simp, hnew i hv, h2, ?_⟩
      rw [h1, hfp]
      simp

theorem cxLoop_ok (p1 p2 : List G) (hnd : p1.Nodup) (hp : p2.Perm p1) (fuel : Nat) (off : List G)
    (vis : List Bool) (c : Nat) (fp : Bool) (starts : List Nat) (h : CxInv p1 p2 starts off vis)
    (hfp : fp = decide (starts.length % 2 = 0)) (hc : vis[c]? = some false) (hcl : ∀ j, j < c → vis[j]? = some true)
    (hf : vis.count false < fuel) :
    ∃ r starts', cxLoop p1 p2 p1.length fuel off vis c fp = .ok r ∧ CxResult p1 p2 starts' r := by
  induction fuel generalizing off vis c fp starts with
  | zero => omega
  | succ fuel ih =>
    have hcn : c < p1.length := by rw [← h.len_vis]; exact (List.getElem?_eq_some_iff.1 hc).1
    unfold cxLoop
    rw [if_pos hcn]
    rcases cxCycle_spec p1 p2 fp p1.length rfl hp.length_eq (p1.length + 1) off vis c h.len_off h.len_vis hcn
      (by have := List.count_le_length (a := false) (l := vis); have := h.len_vis; omega) with
      ⟨-, j, hj, hbad⟩ | ⟨off', vis', he, hq⟩
    · exfalso
      apply hbad
      cases fp with
      | true =>
        obtain ⟨l, hl, he⟩ := List.getElem_of_mem (hp.mem_iff.2 (List.getElem_mem hj))
        exact ⟨l, by simpa using CxLink.intro hj hl he.symm⟩
      | false =>
        have hj2 : j < p2.length := hp.length_eq ▸ hj
        obtain ⟨l, hl, he⟩ := List.getElem_of_mem (hp.mem_iff.1 (List.getElem_mem hj2))
        exact ⟨l, by simpa using CxLink.intro hl hj2 he⟩
    · have hinv := h.step hnd hp c fp hfp hc hcl hq
      simp only [he, Res.bind_ok]
      rcases findIdx_unvisited vis' with ⟨h3, h4⟩ | ⟨c', h3, h4, h5⟩
      · simp only [h3, Res.pure_eq]
        refine ⟨off', starts ++ [c], rfl, ⟨hq.len_off, ?_, hinv.ascending, hinv.distinct, ?_⟩⟩
        · intro s hs
          have := hinv.visited s hs
          rw [← hq.len_vis]; exact (List.getElem?_eq_some_iff.1 this).1
        · intro i hi; exact hinv.genes i (h4 i (by rw [hq.len_vis]; exact hi))
      · simp only [h3]
        refine ih off' vis' c' (!fp) (starts ++ [c]) hinv ?_ h4 h5 (by have := hq.progress hc; omega)
        rw [hfp, List.length_append, List.length_singleton]
        by_cases hpar : starts.length % 2 = 0
        · simp [hpar]; omega
        · simp [hpar]; omega

/-- The result described by `CxResult` is a permutation of the parents. -/
theorem CxResult.perm {p1 p2 : List G} (hnd : p1.Nodup) (hp : p2.Perm p1) {starts : List Nat} {off : List G}
    (h : CxResult p1 p2 starts off) : off.Perm p1 := by
  have hlen := hp.length_eq
  have same : ∀ {k l s t : Nat}, starts[k]? = some s → starts[l]? = some t → SameCycle p1 p2 s t → k = l := by
    intro k l s t hk hl hst
    obtain ⟨hk', hk⟩ := List.getElem?_eq_some_iff.1 hk
    obtain ⟨hl', hl⟩ := List.getElem?_eq_some_iff.1 hl
    have hd := List.pairwise_iff_getElem.1 h.distinct
    rcases Nat.lt_trichotomy k l with hlt | he | hlt
    · exact absurd hst (by have := hd k l hk' hl' hlt; rwa [hk, hl] at this)
    · exact he
    · exact absurd (Relation.EqvGen.symm _ _ hst) (by have := hd l k hl' hk' hlt; rwa [hk, hl] at this)
  apply perm_of_nodup
  · rw [List.nodup_iff_injective_getElem]
    rintro ⟨i, hi⟩ ⟨j, hj⟩ hij
    simp only at hij
    have hi1 : i < p1.length := h.length ▸ hi
    have hj1 : j < p1.length := h.length ▸ hj
    have hi2 : i < p2.length := hlen ▸ hi1
    have hj2 : j < p2.length := hlen ▸ hj1
    obtain ⟨k, s, hk, -, hs, hgi⟩ := h.genes i hi1
    obtain ⟨l, t, hl, -, ht, hgj⟩ := h.genes j hj1
    simp only [List.getElem?_eq_getElem hi, List.getElem?_eq_getElem hi1, List.getElem?_eq_getElem hi2] at hgi
    simp only [List.getElem?_eq_getElem hj, List.getElem?_eq_getElem hj1, List.getElem?_eq_getElem hj2] at hgj
    apply Fin.ext
    show i = j
    by_cases hk2 : k % 2 = 0 <;> by_cases hl2 : l % 2 = 0 <;>
      simp only [hk2, hl2, if_true, if_false, Option.some_inj] at hgi hgj
    · exact (hnd.getElem_inj_iff).1 (hgi.symm.trans (hij.trans hgj))
    · exfalso
      have : SameCycle p1 p2 i j := Relation.EqvGen.rel _ _ (CxLink.intro hi1 hj2 (hgi.symm.trans (hij.trans hgj)))
      have := same hk hl (Relation.EqvGen.trans _ _ _ (Relation.EqvGen.trans _ _ _ hs this)
        (Relation.EqvGen.symm _ _ ht))
      omega
    · exfalso
      have : SameCycle p1 p2 j i := Relation.EqvGen.rel _ _ (CxLink.intro hj1 hi2 (hgj.symm.trans (hij.symm.trans hgi)))
      have := same hl hk (Relation.EqvGen.trans _ _ _ (Relation.EqvGen.trans _ _ _ ht this)
        (Relation.EqvGen.symm _ _ hs))
      omega
    · exact ((hp.nodup_iff.2 hnd).getElem_inj_iff).1 (hgi.symm.trans (hij.trans hgj))
  · intro x hx
    obtain ⟨i, hi, rfl⟩ := List.getElem_of_mem hx
    obtain ⟨k, s, -, -, -, hg⟩ := h.genes i (h.length ▸ hi)
    rw [List.getElem?_eq_getElem hi] at hg
    split at hg
    · exact List.mem_of_getElem? hg.symm
    · exact hp.mem_iff.1 (List.mem_of_getElem? hg.symm)
  · rw [h.length]

theorem cxInv_init (p1 p2 : List G) (x : G) :
    CxInv p1 p2 [] (List.replicate p1.length x) (List.replicate p1.length false) where
  len_off := by simp
  len_vis := by simp
  closed := by
    intro i j _
    have : ∀ i : Nat, (List.replicate p1.length false)[i]? ≠ some true := by
      intro i h; rw [List.getElem?_replicate] at h; split at h <;> simp at h
    exact ⟨fun h => absurd h (this i), fun h => absurd h (this j)⟩
  visited := by simp
  least := by simp
  ascending := List.Pairwise.nil
  distinct := List.Pairwise.nil
  genes := by
    intro i h
    rw [List.getElem?_replicate] at h; split at h <;> simp at h

end RG
