import Verif.Proofs.Partitions
import Verif.Props.Neighbors

/-!
# Property C75: the common partitions of two permutations in closed form
-/

namespace RG.Props
set_option linter.unusedSectionVars false
variable {G : Type} [DecidableEq G]

/-- What the runs are: the parts of the first genome, none empty, each a chain of neighbours in the second genome, cut
where the genes are not neighbours there. -/
theorem commonRuns_spec (g₁ g₂ : List G) :
    g₁ = (commonRuns g₁ g₂).flatten ∧ [] ∉ commonRuns g₁ g₂ ∧
      (∀ m ∈ commonRuns g₁ g₂, m.IsChain fun a b => Adj g₂ a b) ∧ (commonRuns g₁ g₂).IsChain (Cut g₂) := by
  obtain ⟨h1, h2, h3, h4⟩ := List.splitBy_eq_iff.1 (rfl : g₁.splitBy (fun a b => decide (Adj g₂ a b)) = commonRuns g₁ g₂)
  refine ⟨h1, h2, fun m hm => (h3 m hm).imp fun a b h => of_decide_eq_true h, h4.imp ?_⟩
  rintro a b ⟨ha, hb, h⟩ y z hy hz
  rw [List.getLast?_eq_getLast_of_ne_nil ha, Option.some.injEq] at hy
  rw [List.head?_eq_some_head hb, Option.some.injEq] at hz
  subst hy hz
  exact of_decide_eq_false h

theorem commonParts_unique {g₁ g₂ : List G} {a b : List (List G)} (ha : CommonParts g₁ g₂ a) (hb : CommonParts g₁ g₂ b) :
    a = b := by
  rcases ha with ⟨x, mid, last, hw, rfl⟩ | ⟨hw, rfl⟩
  · rcases hb with ⟨x', mid', last', hw', rfl⟩ | ⟨hw', -⟩
    · have := hw.1.symm.trans hw'.1
      simp only [List.cons.injEq, and_true] at this
      obtain ⟨h1, h⟩ := this
      obtain ⟨h2, h3⟩ := List.append_inj' h rfl
      simp only [List.cons.injEq, and_true] at h3
      rw [h1, h2, h3]
    · exact absurd ⟨x, mid, last, hw⟩ hw'
  · rcases hb with ⟨x', mid', last', hw', rfl⟩ | ⟨hw', rfl⟩
    · exact absurd ⟨x', mid', last', hw'⟩ hw
    · rfl

/-! ### C75 -/

/-- **C75** For totally ordered genes and permutations of at least three distinct genes, `common_partitions` returns
exactly the longest runs of the first genome whose neighbours are neighbours in the second; only a first run of a single
gene is continued backwards by the last run if these two are neighbours. -/
theorem C75_partitions (lt : G → G → Bool) (hasymm : ∀ a b, lt a b = true → lt b a = false)
    (htotal : ∀ a b, lt a b = true ∨ a = b ∨ lt b a = true) (g₁ g₂ : List G) (hnd : g₁.Nodup) (hp : g₂.Perm g₁)
    (hn : 3 ≤ g₁.length) (r : Res (List (List G))) :
    commonPartitions lt g₁ g₂ = r ↔ ∃ parts, r = .ok parts ∧ CommonParts g₁ g₂ parts := by
  suffices h : ∃ parts, commonPartitions lt g₁ g₂ = .ok parts ∧ CommonParts g₁ g₂ parts by
    obtain ⟨parts, e, hc⟩ := h
    rw [e]
    constructor
    · rintro rfl; exact ⟨parts, rfl, hc⟩
    · rintro ⟨parts', rfl, hc'⟩
      rw [commonParts_unique hc hc']
  have hlen := hp.length_eq
  obtain ⟨l, el, -⟩ := commonNeighbors_ok lt g₁ g₂
  have hl := linked_iff hasymm htotal (by omega) (by omega) el
  have ecp : commonPartitions lt g₁ g₂ = partitionsLoop l g₁ [] [] := by unfold commonPartitions; rw [el]; rfl
  rw [ecp]
  have hne0 : g₁ ≠ [] := by rintro rfl; simp at hn
  obtain ⟨hfl, hnil, hch, hcut⟩ := commonRuns_spec g₁ g₂
  -- the first run
  obtain ⟨m0, ls, hruns⟩ := List.exists_cons_of_ne_nil (show commonRuns g₁ g₂ ≠ [] from by
    intro h; rw [h] at hfl; exact hne0 (by simpa using hfl))
  obtain ⟨x, rest, rfl⟩ := List.exists_cons_of_ne_nil (show m0 ≠ [] from by
    rintro rfl; exact hnil (by rw [hruns]; simp))
  rw [hruns] at hfl hnil hch hcut
  have hg : g₁ = x :: (rest ++ ls.flatten) := by simpa using hfl
  have hnd' : (x :: (rest ++ ls.flatten)).Nodup := hg ▸ hnd
  obtain ⟨hx, hnd2⟩ := List.nodup_cons.1 hnd'
  have hcut0 : ∀ y z, (x :: rest).getLast? = some y → ls.flatten.head? = some z → ¬ Adj g₂ y z := by
    intro y z hy hz
    cases ls with
    | nil => simp at hz
    | cons m' ls' =>
      rw [List.isChain_cons_cons] at hcut
      obtain ⟨x', rest', rfl⟩ := List.exists_cons_of_ne_nil (show m' ≠ [] from by rintro rfl; exact hnil (by simp))
      exact hcut.1 y z hy (by simpa using hz)
  by_cases hw : ∃ x mid last, Wrapped g₁ g₂ x mid last
  · -- the first run is a single gene continued by the last run
    obtain ⟨x', mid, last, hwr, z, hz, hadj⟩ := hw
    refine ⟨_, ?_, Or.inl ⟨x', mid, last, ⟨hwr, z, hz, hadj⟩, rfl⟩⟩
    rw [hruns] at hwr
    simp only [List.cons.injEq] at hwr
    obtain ⟨⟨rfl, rfl⟩, rfl⟩ := hwr
    have hlast : last ≠ [] := by rintro rfl; simp at hz
    have hg' : g₁ = x :: (mid.flatten ++ last) := by simpa using hg
    obtain ⟨init, rfl⟩ : ∃ init, last = init ++ [z] := ⟨last.dropLast, (List.dropLast_append_getLast? z hz).symm⟩
    have hlen' : g₁.length = (x :: (mid.flatten ++ init)).length + 1 := by rw [hg']; simp; omega
    have hadj1 : Adj g₁ x z := by
      refine Or.inr ⟨(x :: (mid.flatten ++ init)).length, by omega, ?_, ?_⟩
      · rw [hg']
        show (x :: (mid.flatten ++ (init ++ [z])))[(mid.flatten ++ init).length + 1]? = some z
        rw [List.getElem?_cons_succ, ← List.append_assoc, List.getElem?_concat_length]
      · rw [← hlen', Nat.mod_self, hg']; rfl
    have hndz : (z :: init.reverse).Nodup := by
      have h1 : (init ++ [z]).Nodup := by
        have h2 : (mid.flatten ++ (init ++ [z])).Nodup := by simpa using hnd2
        exact (List.nodup_append.1 h2).2.1
      have : (z :: init.reverse) = (init ++ [z]).reverse := by simp
      rw [this, List.nodup_reverse]; exact h1
    have hxz : z ≠ x := by rintro rfl; exact hx (by simp)
    have hxinit : ∀ y ∈ init, y ≠ x := by rintro y hy rfl; exact hx (by simp [hy])
    have hstep : nextNode l [x] x = some z := by
      refine nextNode_eq_some ((hl x z).2 ⟨hadj1, hadj.symm⟩) (by simpa using hxz) fun y hy hyv => ?_
      obtain ⟨h1, h2⟩ := (hl x y).1 hy
      rcases adj_split (pre := []) hnd hg' h1 with h | h | h | h
      · exact absurd h2 (hcut0 x y (by simp) (by simpa using h))
      · exact absurd h.1 (by simp)
      · simp at h
      · have := h.2
        rw [hg'] at this
        simp only [List.getLast?_cons, List.getLast?_append, Option.some_or, Option.getD_some,
          Option.some.injEq] at this
        exact this.symm
    have hwalk : Walk l [x] x (z :: init.reverse) := by
      refine .cons hstep ?_
      refine walk_backward hnd hl init.reverse mid.flatten [] [z, x] z x (by simpa using hg') (by simp) (by simp) ?_
        (by simp) ?_ ?_
      · intro y hy hyv
        simp only [List.mem_cons, List.not_mem_nil, or_false] at hyv
        rcases hyv with rfl | rfl
        · exact (List.nodup_cons.1 hndz).1 hy
        · exact hxinit y (List.mem_reverse.1 hy) rfl
      · have hc := hch (init ++ [z]) (by simp)
        have : (z :: init.reverse) = (init ++ [z]).reverse := by simp
        rw [this, List.isChain_reverse]
        exact hc.imp fun a b h => h.symm
      · intro y w hy hw hyw
        have hy' : (init ++ [z]).head? = some y := by
          have : (z :: init.reverse) = (init ++ [z]).reverse := by simp
          rw [this, List.getLast?_reverse] at hy; exact hy
        have hcut2 : ([x] :: mid ++ [init ++ [z]]).IsChain (Cut g₂) := hcut
        obtain ⟨ini, a, hia⟩ : ∃ ini a, [x] :: mid = ini ++ [a] :=
          ⟨_, _, (List.dropLast_append_getLast (l := [x] :: mid) (by simp)).symm⟩
        have hane : a ≠ [] := by
          rintro rfl
          have : [] ∈ [x] :: mid := by rw [hia]; simp
          exact hnil (by simp only [List.mem_cons, List.mem_append] at this ⊢; tauto)
        rw [hia] at hcut2
        have hc : Cut g₂ a (init ++ [z]) := (List.isChain_append.1 hcut2).2.2 a (by simp) _ (by simp)
        have hfl' : x :: mid.flatten = ini.flatten ++ a := by
          have := congrArg List.flatten hia
          simpa using this
        refine hc w y ?_ hy' hyw.symm
        rw [hfl', List.getLast?_append] at hw
        obtain ⟨a', b', rfl⟩ : ∃ a' b', a = a' ++ [b'] := ⟨_, _, (List.dropLast_append_getLast hane).symm⟩
        simpa using hw
    have e1 := partitionsLoop_run (mid.flatten ++ (init ++ [z])) [] (x := x) (vis := []) (by simp) (by simp) hwalk
    conv_lhs => rw [hg']
    rw [e1]
    have hmem : ∀ y, y ∈ (z :: init.reverse).reverse ++ [x] ↔ y ∈ init ∨ y = z ∨ y = x := by intro y; simp
    rw [partitionsLoop_runs hnd hl mid [x] (init ++ [z]) ((z :: init.reverse).reverse ++ [x]) _ (by simpa using hg')
      (by simp) (by simp) (by intro y hy; rw [hmem]; simp only [List.mem_append, List.mem_singleton] at hy; tauto) ?_ ?_
      (fun h => hnil (by simp [h])) (fun m hm => hch m (by simp [hm])) hcut.tail]
    · simp
    · rw [List.nodup_append]
      refine ⟨List.nodup_reverse.2 hndz, by simp, ?_⟩
      rintro a ha b hb rfl
      simp only [List.mem_reverse, List.mem_cons, List.not_mem_nil, or_false] at ha hb
      subst hb
      rcases ha with h | h
      · exact hxz h.symm
      · exact hxinit _ h rfl
    · intro y hy hyv
      rw [hmem] at hyv
      have h2 : (mid.flatten ++ (init ++ [z])).Nodup := by simpa using hnd2
      rcases hyv with h | h | h
      · exact (List.nodup_append.1 h2).2.2 y hy y (by simp [h]) rfl
      · exact (List.nodup_append.1 h2).2.2 y hy y (by simp [h]) rfl
      · subst h; exact hx (by simp only [List.nil_append, List.flatten_append, List.mem_append]; exact Or.inl hy)
  · -- the runs themselves
    refine ⟨_, ?_, Or.inr ⟨hw, rfl⟩⟩
    have hwalk : Walk l [x] x rest := by
      cases rest with
      | nil =>
        refine .nil fun z hz => ?_
        obtain ⟨h1, h2⟩ := (hl x z).1 hz
        have hls : ls ≠ [] := by rintro rfl; rw [hg] at hn; simp at hn
        rcases adj_split (pre := []) hnd (by simpa using hg) h1 with h | h | h | h
        · exact absurd h2 (hcut0 x z (by simp) h)
        · obtain ⟨h, -⟩ := h
          rw [hg] at hn
          simp [h] at hn
        · simp at h
        · exfalso
          obtain ⟨mid, last, rfl⟩ : ∃ mid last, ls = mid ++ [last] := ⟨_, _, (List.dropLast_append_getLast hls).symm⟩
          have hlast : last ≠ [] := by rintro rfl; exact hnil (by simp)
          obtain ⟨init, z', rfl⟩ : ∃ init z', last = init ++ [z'] := ⟨_, _, (List.dropLast_append_getLast hlast).symm⟩
          have hzz : z' = z := by
            have := h.2
            rw [hg] at this
            simpa [List.getLast?_cons, List.getLast?_append] using this
          subst hzz
          exact hw ⟨x, mid, init ++ [z'], hruns, z', by simp, h2.symm⟩
      | cons y rest =>
        have hg' : g₁ = x :: y :: (rest ++ ls.flatten) := by simpa using hg
        have hxy : y ≠ x := by rintro rfl; exact hx (by simp)
        have hc := hch (x :: y :: rest) (by simp)
        rw [List.isChain_cons_cons] at hc
        refine .cons (nextNode_first hasymm htotal (by rw [← hg']; omega) (by omega) (by rw [← hg']; exact el) hxy hc.1) ?_
        refine walk_forward hnd hl rest [x] ls.flatten [y, x] y (by simpa using hg) (by simp) (by simp) ?_ (by simp) hc.2
          (by simpa using hcut0)
        intro w hw' hwv
        simp only [List.mem_cons, List.not_mem_nil, or_false] at hwv
        rcases hwv with rfl | rfl
        · have := (List.nodup_append.1 hnd2).1
          exact (List.nodup_cons.1 this).1 hw'
        · exact hx (by simp [hw'])
    have e1 := partitionsLoop_run (rest ++ ls.flatten) [] (x := x) (vis := []) (by simp) (by simp) hwalk
    conv_lhs => rw [hg]
    rw [e1, partitionsLoop_skip _ _ _ _ (by intro y hy; simp [hy]), hruns]
    have := partitionsLoop_runs hnd hl ls (x :: rest) [] (rest.reverse ++ [x]) ([] ++ [x :: rest]) (by simpa using hg)
      (by simp) (by intro y hy; simp only [List.mem_append, List.mem_cons, List.mem_reverse] at hy ⊢; tauto) (by simp) ?_ ?_
      (fun h => hnil (by simp [h])) (fun m hm => hch m (by simp [hm])) ?_
    · simpa using this
    · have : rest.reverse ++ [x] = (x :: rest).reverse := by simp
      rw [this, List.nodup_reverse]
      exact (List.nodup_append.1 (show (x :: rest ++ ls.flatten).Nodup from hnd')).1
    · intro y hy hyv
      refine (List.nodup_append.1 (show (x :: rest ++ ls.flatten).Nodup from hnd')).2.2 y ?_ y hy rfl
      simp only [List.mem_append, List.mem_cons, List.mem_reverse] at hyv ⊢
      tauto
    · rw [List.isChain_append]
      refine ⟨hcut.tail, by simp, ?_⟩
      intro a _ b hb y z _ hz
      simp only [List.head?_cons, Option.mem_def, Option.some.injEq] at hb
      subst hb
      simp at hz

/-- **C75** Genomes of at most two genes have no common neighbours: every gene is a partition of its own. -/
theorem C75_short (lt : G → G → Bool) (g₁ g₂ : List G) (hnd : g₁.Nodup) (h : g₁.length < 2 ∨ g₂.length ≤ 2) :
    commonPartitions lt g₁ g₂ = .ok (g₁.map fun x => [x]) := by
  have key : ∀ (nodes vis : List G) (parts : List (List G)), nodes.Nodup → (∀ x ∈ nodes, x ∉ vis) →
      partitionsLoop [] nodes vis parts = .ok (parts ++ nodes.map fun x => [x]) := by
    intro nodes
    induction nodes with
    | nil => intro vis parts _ _; simp [partitionsLoop]
    | cons x nodes ih =>
      intro vis parts hn hv
      obtain ⟨h1, h2⟩ := List.nodup_cons.1 hn
      unfold partitionsLoop
      rw [if_neg (hv x (by simp))]
      have : growPartition [] (2 * ([] : List (G × G)).length + 1) [x] (x :: vis) = .ok ([x], x :: vis) := rfl
      rw [this]
      show partitionsLoop [] nodes (x :: vis) (parts ++ [[x]]) = _
      rw [ih (x :: vis) (parts ++ [[x]]) h2 ?_]
      · simp
      · intro y hy hyv
        rcases List.mem_cons.1 hyv with rfl | hyv
        · exact h1 hy
        · exact hv y (List.mem_cons_of_mem _ hy) hyv
  unfold commonPartitions
  rw [C20_short lt g₁ g₂ h]
  simpa using key g₁ [] [] hnd (by simp)

/-- Two consecutive genes that are linked are in the same run. -/
theorem infix_of_cut {g₂ : List G} (ls : List (List G)) (hnil : [] ∉ ls) (hcut : ls.IsChain (Cut g₂)) {a b : G}
    (h : [a, b] <:+: ls.flatten) (hab : Adj g₂ a b) : ∃ m ∈ ls, [a, b] <:+: m := by
  induction ls with
  | nil => simp at h
  | cons m ls ih =>
    rw [List.flatten_cons] at h
    obtain ⟨s, t, h⟩ := h
    have h' : s ++ ([a, b] ++ t) = m ++ ls.flatten := by rw [← h]; simp
    rcases List.append_eq_append_iff.1 h' with ⟨u, h1, h2⟩ | ⟨u, h1, h2⟩
    · -- `m = s ++ u`
      rcases u with _ | ⟨a', u⟩
      · obtain ⟨m', hm', hi⟩ := ih (fun h => hnil (List.mem_cons_of_mem _ h)) hcut.tail ⟨[], t, by simpa using h2⟩
        exact ⟨m', List.mem_cons_of_mem _ hm', hi⟩
      · rcases u with _ | ⟨b', u⟩
        · exfalso
          simp only [List.cons_append, List.nil_append, List.cons.injEq] at h2
          obtain ⟨rfl, h2⟩ := h2
          cases ls with
          | nil => simp at h2
          | cons m' ls' =>
            rw [List.isChain_cons_cons] at hcut
            obtain ⟨x', rest', rfl⟩ := List.exists_cons_of_ne_nil (show m' ≠ [] from by rintro rfl; exact hnil (by simp))
            simp only [List.flatten_cons, List.cons_append, List.cons.injEq] at h2
            exact hcut.1 a b (by rw [h1]; simp) (by rw [h2.1]; rfl) hab
        · simp only [List.cons_append, List.nil_append, List.cons.injEq] at h2
          obtain ⟨rfl, rfl, -⟩ := h2
          exact ⟨m, by simp, s, u, by rw [h1]; simp⟩
    · -- `s = m ++ u`
      obtain ⟨m', hm', hi⟩ := ih (fun h => hnil (List.mem_cons_of_mem _ h)) hcut.tail ⟨u, t, by rw [h2]; simp⟩
      exact ⟨m', List.mem_cons_of_mem _ hm', hi⟩

/-- **C75** Hence no common edge is cut inside the first genome: two consecutive genes of it that are neighbours in the
second genome are consecutive in some partition. -/
theorem C75_edges (lt : G → G → Bool) (hasymm : ∀ a b, lt a b = true → lt b a = false)
    (htotal : ∀ a b, lt a b = true ∨ a = b ∨ lt b a = true) (g₁ g₂ : List G) (hnd : g₁.Nodup) (hp : g₂.Perm g₁)
    (hn : 3 ≤ g₁.length) (parts : List (List G)) (hparts : commonPartitions lt g₁ g₂ = .ok parts) (a b : G)
    (hab : [a, b] <:+: g₁) (ha : Adj g₂ a b) : ∃ p ∈ parts, [a, b] <:+: p ∨ [b, a] <:+: p := by
  obtain ⟨parts', e, hc⟩ := (C75_partitions lt hasymm htotal g₁ g₂ hnd hp hn _).1 hparts
  cases e
  obtain ⟨hfl, hnil, -, hcut⟩ := commonRuns_spec g₁ g₂
  rw [hfl] at hab
  obtain ⟨m, hm, hi⟩ := infix_of_cut _ hnil hcut hab ha
  rcases hc with ⟨x, mid, last, hw, rfl⟩ | ⟨-, rfl⟩
  · rw [hw.1] at hm
    simp only [List.mem_cons, List.mem_append, List.not_mem_nil, or_false] at hm
    rcases hm with rfl | hm | rfl
    · have := hi.length_le
      simp at this
    · exact ⟨m, by simp [hm], Or.inl hi⟩
    · refine ⟨x :: m.reverse, by simp, Or.inr ?_⟩
      have h2 : [b, a] <:+: m.reverse := by
        have := List.reverse_infix.2 hi
        simpa using this
      exact h2.trans (List.suffix_cons x m.reverse).isInfix
  · exact ⟨m, hm, Or.inl hi⟩

-- the first run is longer than one gene: the last run is not joined to it although 1 and 2 are neighbours in both
example : commonRuns [2, 3, 9, 8, 1] [1, 2, 3, 8, 9] = [[2, 3], [9, 8], [1]] := by decide +kernel
-- the first run is a single gene continued by the last run
example : Wrapped [1, 2, 3, 4, 5] [1, 3, 2, 4, 5] 1 [[2, 3]] [4, 5] :=
  ⟨by decide +kernel, 5, rfl, by decide +kernel⟩
example : CommonParts [1, 2, 3, 4, 5] [1, 3, 2, 4, 5] [[1, 5, 4], [2, 3]] :=
  Or.inl ⟨1, [[2, 3]], [4, 5], ⟨by decide +kernel, 5, rfl, by decide +kernel⟩, rfl⟩

end RG.Props
