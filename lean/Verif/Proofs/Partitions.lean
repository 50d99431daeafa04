import Verif.SpecOffspring
import Verif.Proofs.Neighbors

/-! Helper lemmas: the partitions of two permutations are runs of the first. -/

namespace RG
set_option linter.unusedSectionVars false
variable {G : Type} [DecidableEq G]

/-- The walk of the inner loop: from `x` through `rest`, at every gene without another choice. -/
inductive Walk (l : List (G × G)) : List G → G → List G → Prop
  | nil {vis : List G} {x : G} : (∀ z, Linked l x z → z ∈ vis) → Walk l vis x []
  | cons {vis : List G} {x y : G} {rest : List G} : nextNode l vis x = some y → Walk l (y :: vis) y rest →
      Walk l vis x (y :: rest)

theorem nextNode_eq_none {l : List (G × G)} {vis : List G} {x : G} (h : ∀ z, Linked l x z → z ∈ vis) :
    nextNode l vis x = none := by
  cases hn : nextNode l vis x with
  | none => rfl
  | some y => exact absurd (h y (nextNode_some hn).1) (nextNode_some hn).2

theorem nextNode_eq_some {l : List (G × G)} {vis : List G} {x y : G} (hl : Linked l x y) (hv : y ∉ vis)
    (h : ∀ z, Linked l x z → z ∉ vis → z = y) : nextNode l vis x = some y := by
  cases hn : nextNode l vis x with
  | none => exact absurd (nextNode_none hn hl) hv
  | some z => rw [h z (nextNode_some hn).1 (nextNode_some hn).2]

/-- The inner loop follows a walk. -/
theorem growPartition_walk {l : List (G × G)} {vis : List G} {x : G} {rest : List G} (h : Walk l vis x rest) (fuel : Nat)
    (part : List G) : growPartition l fuel (part ++ [x]) vis = .diverge ∨
      growPartition l fuel (part ++ [x]) vis = .ok (part ++ x :: rest, rest.reverse ++ vis) := by
  induction h generalizing fuel part with
  | nil h =>
    cases fuel with
    | zero => exact Or.inl rfl
    | succ fuel =>
      right
      unfold growPartition
      simp [nextNode_eq_none h]
  | @cons vis x y rest hn _ ih =>
    cases fuel with
    | zero => exact Or.inl rfl
    | succ fuel =>
      unfold growPartition
      simp only [List.getLast?_append, List.getLast?_singleton, Option.some_or, Option.bind_some, hn]
      have := ih fuel (part ++ [x])
      simpa using this

theorem growPartition_run {l : List (G × G)} {vis : List G} {x : G} {rest : List G} (hx : x ∉ vis) (hvis : vis.Nodup)
    (h : Walk l (x :: vis) x rest) :
    growPartition l (2 * l.length + 1) [x] (x :: vis) = .ok (x :: rest, rest.reverse ++ x :: vis) := by
  obtain ⟨ext, v', e, -⟩ := growPartition_spec l (2 * l.length + 1) [x] (x :: vis)
    (by have := avail_le l (x :: vis); omega) (by simp) (by simp) (by simp) (by simp) (List.nodup_cons.2 ⟨hx, hvis⟩)
  rcases growPartition_walk h (2 * l.length + 1) [] with h' | h'
  · rw [List.nil_append, e] at h'; cases h'
  · simpa using h'

theorem partitionsLoop_skip {l : List (G × G)} (a b vis : List G) (parts : List (List G)) (h : ∀ x ∈ a, x ∈ vis) :
    partitionsLoop l (a ++ b) vis parts = partitionsLoop l b vis parts := by
  induction a with
  | nil => rfl
  | cons x a ih =>
    rw [List.cons_append]
    conv => lhs; unfold partitionsLoop
    rw [if_pos (h x (by simp))]
    exact ih fun y hy => h y (List.mem_cons_of_mem _ hy)

/-- One run of the outer loop. -/
theorem partitionsLoop_run {l : List (G × G)} {vis : List G} {x : G} {rest : List G} (nodes : List G)
    (parts : List (List G)) (hx : x ∉ vis) (hvis : vis.Nodup) (h : Walk l (x :: vis) x rest) :
    partitionsLoop l (x :: nodes) vis parts =
      partitionsLoop l nodes (rest.reverse ++ x :: vis) (parts ++ [x :: rest]) := by
  conv => lhs; unfold partitionsLoop
  rw [if_neg hx, growPartition_run hx hvis h]
  rfl

/-- The neighbours of a gene in a sequence of distinct genes. -/
theorem adj_split {g pre post : List G} {x y : G} (hnd : g.Nodup) (hg : g = pre ++ x :: post) (h : Adj g x y) :
    post.head? = some y ∨ (post = [] ∧ g.head? = some y) ∨ pre.getLast? = some y ∨ (pre = [] ∧ g.getLast? = some y) := by
  have hx : g[pre.length]? = some x := by rw [hg]; simp
  have hlt : pre.length < g.length := (List.getElem?_eq_some_iff.1 hx).1
  have hlen : g.length = pre.length + (post.length + 1) := by rw [hg]; simp
  rcases h with ⟨i, hi, h1, h2⟩ | ⟨i, hi, h1, h2⟩
  · have : i = pre.length := (List.getElem?_inj hi hnd).1 (h1.trans hx.symm)
    subst this
    by_cases hp : post = []
    · subst hp
      simp only [List.length_nil] at hlen
      rw [hlen, Nat.zero_add, Nat.mod_self] at h2
      exact Or.inr (Or.inl ⟨rfl, by rw [List.head?_eq_getElem?]; exact h2⟩)
    · left
      have := List.length_pos_of_ne_nil hp
      rw [Nat.mod_eq_of_lt (by omega), hg, List.getElem?_append_right (by omega)] at h2
      rw [List.head?_eq_getElem?]
      simpa using h2
  · have hm : (i + 1) % g.length < g.length := Nat.mod_lt _ (by omega)
    have : (i + 1) % g.length = pre.length := (List.getElem?_inj hm hnd).1 (h2.trans hx.symm)
    by_cases hp : pre = []
    · subst hp
      right; right; right
      refine ⟨rfl, ?_⟩
      have hi' : i = g.length - 1 := by
        by_contra hne
        rw [Nat.mod_eq_of_lt (by omega)] at this
        simp at this
      rw [List.getLast?_eq_getElem?, ← hi', h1]
    · right; right; left
      have hpos := List.length_pos_of_ne_nil hp
      have hi' : i + 1 = pre.length := by
        by_cases hl : i + 1 = g.length
        · rw [hl, Nat.mod_self] at this; omega
        · rwa [Nat.mod_eq_of_lt (by omega)] at this
      rw [hg, List.getElem?_append_left (by omega)] at h1
      rw [List.getLast?_eq_getElem?, ← hi']
      exact h1

/-- Consecutive genes are adjacent. -/
theorem adj_consec {g pre post : List G} {x y : G} (hg : g = pre ++ x :: y :: post) : Adj g x y := by
  refine Or.inl ⟨pre.length, by rw [hg]; simp, by rw [hg]; simp, ?_⟩
  rw [Nat.mod_eq_of_lt (by rw [hg]; simp), hg, List.getElem?_append_right (by omega)]
  simp

section
variable {l : List (G × G)} {g g₂ : List G} (hnd : g.Nodup)
  (hl : ∀ a b, Linked l a b ↔ Adj g a b ∧ Adj g₂ a b)
include hnd hl

/-- Forward along the first genome. -/
theorem walk_forward (rest pre post vis : List G) (x : G) (hg : g = pre ++ x :: rest ++ post) (hpre : pre ≠ [])
    (hvis : ∀ y ∈ pre, y ∈ vis) (hrest : ∀ y ∈ rest, y ∉ vis) (hx : x ∈ vis)
    (hch : (x :: rest).IsChain fun a b => Adj g₂ a b)
    (hb : ∀ y z, (x :: rest).getLast? = some y → post.head? = some z → ¬ Adj g₂ y z) : Walk l vis x rest := by
  have hhead : ∀ z, g.head? = some z → z ∈ vis := by
    intro z hz
    obtain ⟨p, ps, rfl⟩ := List.exists_cons_of_ne_nil hpre
    rw [hg] at hz
    simp only [List.cons_append, List.head?_cons, Option.some.injEq] at hz
    subst hz
    exact hvis _ (by simp)
  induction rest generalizing pre x vis with
  | nil =>
    refine .nil fun z hz => ?_
    obtain ⟨h1, h2⟩ := (hl x z).1 hz
    rcases adj_split hnd (by simpa using hg) h1 with h | h | h | h
    · exact absurd h2 (hb x z (by simp) h)
    · exact hhead z h.2
    · exact hvis z (List.mem_of_getLast? h)
    · exact absurd h.1 hpre
  | cons y rest ih =>
    have hg' : g = pre ++ x :: y :: (rest ++ post) := by simpa using hg
    rw [List.isChain_cons_cons] at hch
    refine .cons (nextNode_eq_some ((hl x y).2 ⟨adj_consec hg', hch.1⟩) (hrest y (by simp)) fun z hz hzv => ?_)
      (ih (pre ++ [x]) (y :: vis) y (by simpa using hg) (by simp) ?_ ?_ (by simp) hch.2 (by simpa using hb)
        fun z hz => List.mem_cons_of_mem _ (hhead z hz))
    · obtain ⟨h1, -⟩ := (hl x z).1 hz
      rcases adj_split hnd hg' h1 with h | h | h | h
      · simpa using h.symm
      · exact absurd h.1 (by simp)
      · exact absurd (hvis z (List.mem_of_getLast? h)) hzv
      · exact absurd h.1 hpre
    · intro z hz
      rcases List.mem_append.1 hz with hz | hz
      · exact List.mem_cons_of_mem _ (hvis z hz)
      · rw [List.mem_singleton] at hz; subst hz; exact List.mem_cons_of_mem _ hx
    · intro z hz hzv
      rcases List.mem_cons.1 hzv with rfl | hzv
      · rw [hg'] at hnd
        have := (List.nodup_append.1 hnd).2.1
        simp only [List.nodup_cons, List.mem_append, List.mem_cons] at this
        exact this.2.1 (Or.inl hz)
      · exact hrest z (List.mem_cons_of_mem _ hz) hzv

/-- Backward along the first genome, whose first gene `f` is visited. -/
theorem walk_backward (rest pre post vis : List G) (x f : G) (hg : g = f :: (pre ++ rest.reverse ++ x :: post)) (hf : f ∈ vis)
    (hvis : ∀ y ∈ post, y ∈ vis) (hrest : ∀ y ∈ rest, y ∉ vis) (hx : x ∈ vis)
    (hch : (x :: rest).IsChain fun a b => Adj g₂ a b)
    (hb : ∀ y z, (x :: rest).getLast? = some y → (f :: pre).getLast? = some z → ¬ Adj g₂ y z) : Walk l vis x rest := by
  induction rest generalizing post x vis with
  | nil =>
    refine .nil fun z hz => ?_
    obtain ⟨h1, h2⟩ := (hl x z).1 hz
    rcases adj_split (pre := f :: pre) (post := post) hnd (by simpa using hg) h1 with h | h | h | h
    · exact hvis z (List.mem_of_head? h)
    · have := h.2
      rw [hg] at this
      simp only [List.head?_cons, Option.some.injEq] at this
      exact this ▸ hf
    · exact absurd h2 (hb x z (by simp) h)
    · exact absurd h.1 (by simp)
  | cons y rest ih =>
    have hg' : g = (f :: (pre ++ rest.reverse)) ++ y :: x :: post := by simpa using hg
    have hg'' : g = (f :: (pre ++ rest.reverse) ++ [y]) ++ x :: post := by simpa using hg
    rw [List.isChain_cons_cons] at hch
    refine .cons (nextNode_eq_some ((hl x y).2 ⟨(adj_consec hg').symm, hch.1⟩) (hrest y (by simp)) fun z hz hzv => ?_)
      (ih (x :: post) (y :: vis) y (by simpa using hg) (List.mem_cons_of_mem _ hf) ?_ ?_ (by simp) hch.2 (by simpa using hb))
    · obtain ⟨h1, -⟩ := (hl x z).1 hz
      rcases adj_split hnd hg'' h1 with h | h | h | h
      · exact absurd (hvis z (List.mem_of_head? h)) hzv
      · have := h.2
        rw [hg] at this
        simp only [List.head?_cons, Option.some.injEq] at this
        exact absurd (this ▸ hf) hzv
      · rw [List.getLast?_append] at h; simpa using h.symm
      · exact absurd h.1 (by simp)
    · intro z hz
      rcases List.mem_cons.1 hz with rfl | hz
      · exact List.mem_cons_of_mem _ hx
      · exact List.mem_cons_of_mem _ (hvis z hz)
    · intro z hz hzv
      rcases List.mem_cons.1 hzv with rfl | hzv
      · rw [hg'] at hnd
        have := (List.nodup_append.1 hnd).2.2 z (by simp [hz]) z (by simp)
        exact this rfl
      · exact hrest z (List.mem_cons_of_mem _ hz) hzv

/-- No gene of the one list is linked to the first of the next. -/
def Cut (g₂ : List G) (a b : List G) : Prop := ∀ y z, a.getLast? = some y → b.head? = some z → ¬ Adj g₂ y z

/-- The outer loop on a part of the first genome after its first gene returns the runs. -/
theorem partitionsLoop_runs (ls : List (List G)) (pre tailv vis : List G) (parts : List (List G))
    (hg : g = pre ++ ls.flatten ++ tailv) (hpre : pre ≠ []) (hvis : ∀ y ∈ pre, y ∈ vis) (htail : ∀ y ∈ tailv, y ∈ vis)
    (hvnd : vis.Nodup) (hdis : ∀ y ∈ ls.flatten, y ∉ vis) (hne : [] ∉ ls)
    (hch : ∀ m ∈ ls, m.IsChain fun a b => Adj g₂ a b) (hcut : (ls ++ [tailv]).IsChain (Cut g₂)) :
    partitionsLoop l (ls.flatten ++ tailv) vis parts = .ok (parts ++ ls) := by
  induction ls generalizing pre vis parts with
  | nil =>
    rw [List.flatten_nil, List.nil_append, ← List.append_nil tailv, partitionsLoop_skip _ _ _ _ htail]
    simp [partitionsLoop]
  | cons m ls ih =>
    obtain ⟨x, rest, rfl⟩ := List.exists_cons_of_ne_nil (fun h : m = [] => hne (by simp [h]))
    have hnd' : (x :: rest).Nodup := by
      have h1 : ((x :: rest) ++ ls.flatten).Nodup := by
        have h2 : (pre ++ (x :: rest ++ ls.flatten ++ tailv)).Nodup := by
          have := hnd; rw [hg] at this; simpa using this
        exact (List.nodup_append.1 (List.nodup_append.1 h2).2.1).1
      exact (List.nodup_append.1 h1).1
    have hxv : x ∉ vis := hdis x (by simp)
    have hcuthead : ∀ y z, (x :: rest).getLast? = some y → (ls.flatten ++ tailv).head? = some z → ¬ Adj g₂ y z := by
      intro y z hy hz
      cases ls with
      | nil =>
        simp only [List.cons_append, List.nil_append, List.isChain_cons_cons] at hcut
        exact hcut.1 y z hy (by simpa using hz)
      | cons m' ls' =>
        simp only [List.cons_append, List.isChain_cons_cons] at hcut
        obtain ⟨x', rest', rfl⟩ := List.exists_cons_of_ne_nil (fun h : m' = [] => hne (by simp [h]))
        exact hcut.1 y z hy (by simpa using hz)
    have hw : Walk l (x :: vis) x rest := by
      refine walk_forward hnd hl rest pre (ls.flatten ++ tailv) (x :: vis) x (by simpa using hg) hpre
        (fun y hy => List.mem_cons_of_mem _ (hvis y hy)) ?_ (by simp) (hch _ (by simp)) hcuthead
      intro y hy hyv
      rcases List.mem_cons.1 hyv with rfl | hyv
      · exact (List.nodup_cons.1 hnd').1 hy
      · exact hdis y (by simp [hy]) hyv
    have e := partitionsLoop_run (rest ++ (ls.flatten ++ tailv)) parts hxv hvnd hw
    rw [List.flatten_cons, List.cons_append, List.cons_append, List.append_assoc, e,
      partitionsLoop_skip rest _ _ _ (by intro y hy; simp [hy])]
    rw [ih (pre ++ x :: rest) (rest.reverse ++ x :: vis) (parts ++ [x :: rest]) (by simpa using hg) (by simp) ?_ ?_ ?_ ?_
      (fun h => hne (List.mem_cons_of_mem _ h)) (fun m hm => hch m (List.mem_cons_of_mem _ hm)) ?_]
    · simp
    · intro y hy
      simp only [List.mem_append, List.mem_cons, List.mem_reverse] at hy ⊢
      rcases hy with hy | hy | hy
      · exact Or.inr (Or.inr (hvis y hy))
      · exact Or.inr (Or.inl hy)
      · exact Or.inl hy
    · intro y hy
      simp only [List.mem_append, List.mem_cons, List.mem_reverse]
      exact Or.inr (Or.inr (htail y hy))
    · rw [List.nodup_append]
      refine ⟨List.nodup_reverse.2 (List.nodup_cons.1 hnd').2, List.nodup_cons.2 ⟨hxv, hvnd⟩, ?_⟩
      rintro a ha b hb rfl
      rw [List.mem_reverse] at ha
      rcases List.mem_cons.1 hb with rfl | hb
      · exact (List.nodup_cons.1 hnd').1 ha
      · exact hdis a (by simp [ha]) hb
    · intro y hy hyv
      simp only [List.mem_append, List.mem_cons, List.mem_reverse] at hyv
      have h2 : ((x :: rest) ++ ls.flatten).Nodup := by
        have h2 : (pre ++ (x :: rest ++ ls.flatten ++ tailv)).Nodup := by
          have := hnd; rw [hg] at this; simpa using this
        exact (List.nodup_append.1 (List.nodup_append.1 h2).2.1).1
      rcases hyv with hyv | hyv | hyv
      · exact (List.nodup_append.1 h2).2.2 y (by simp [hyv]) y hy rfl
      · exact (List.nodup_append.1 h2).2.2 y (by simp [hyv]) y hy rfl
      · exact hdis y (by simp only [List.flatten_cons, List.mem_append]; exact Or.inr hy) hyv
    · simp only [List.cons_append] at hcut
      exact hcut.tail

end

/-- Two genes are listed as neighbours iff they are adjacent in both genomes. -/
theorem linked_iff {lt : G → G → Bool} (hasymm : ∀ a b, lt a b = true → lt b a = false)
    (htotal : ∀ a b, lt a b = true ∨ a = b ∨ lt b a = true) {g g₂ : List G} (h₁ : 2 ≤ g.length) (h₂ : 3 ≤ g₂.length)
    {l : List (G × G)} (e : commonNeighbors lt g g₂ = .ok l) (a b : G) : Linked l a b ↔ Adj g a b ∧ Adj g₂ a b := by
  obtain ⟨l', e', h, -⟩ := commonNeighbors_ok lt g g₂
  rw [e] at e'; cases e'
  have hm : ∀ x y, (x, y) ∈ l ↔ Adj g x y ∧ Adj g₂ x y ∧ lt y x = false := by
    intro x y
    rw [h (by omega), neighbor_iff_adj hasymm htotal, neighbor_iff_adj hasymm htotal]
    tauto
  unfold Linked
  rw [hm, hm]
  constructor
  · rintro (⟨h1, h2, -⟩ | ⟨h1, h2, -⟩)
    · exact ⟨h1, h2⟩
    · exact ⟨h1.symm, h2.symm⟩
  · rintro ⟨h1, h2⟩
    by_cases hlt : lt b a = true
    · exact Or.inr ⟨h1.symm, h2.symm, hasymm _ _ hlt⟩
    · exact Or.inl ⟨h1, h2, by simpa using hlt⟩

/-- At the first gene the follower is preferred. -/
theorem nextNode_first {lt : G → G → Bool} (hasymm : ∀ a b, lt a b = true → lt b a = false)
    (htotal : ∀ a b, lt a b = true ∨ a = b ∨ lt b a = true) {x y : G} {post g₂ : List G}
    (hlen : (x :: y :: post).length ≤ g₂.length) (h₂ : 3 ≤ g₂.length)
    {l : List (G × G)} (e : commonNeighbors lt (x :: y :: post) g₂ = .ok l) (hxy : y ≠ x) (ha : Adj g₂ x y) :
    nextNode l [x] x = some y := by
  obtain ⟨n2, e2, m2, -⟩ := neighborList_ok lt g₂ (by omega)
  have hmem : neighbor lt x y ∈ n2 := by
    rw [m2]
    rcases ha with ha | ha
    · exact ⟨x, y, ha, rfl⟩
    · refine ⟨y, x, ha, ?_⟩
      unfold neighbor
      rcases htotal x y with h | h | h
      · rw [h, hasymm _ _ h]; simp
      · exact absurd h.symm hxy
      · rw [h, hasymm _ _ h]; simp
  have hl : ∃ l', l = neighbor lt x y :: l' := by
    unfold commonNeighbors at e
    rw [if_neg (by simp only [List.length_cons]; omega), if_pos hlen] at e
    have e1 : ∃ n1, neighborList lt (x :: y :: post) = .ok (neighbor lt x y :: n1) := ⟨_, rfl⟩
    obtain ⟨n1, e1⟩ := e1
    simp only [e1, e2, Res.bind_ok, Res.pure_eq, Res.ok.injEq] at e
    rw [List.filter_cons_of_pos (by simpa using hmem)] at e
    exact ⟨_, e.symm⟩
  obtain ⟨l', rfl⟩ := hl
  unfold nextNode
  rw [List.findSome?_cons]
  rcases neighbor_cases lt x y with h | h <;> rw [h] <;> simp [hxy]

end RG
