import Verif.Proofs.Parallel
import Verif.Proofs.Selection

/-!
# Parallel tasks (C91) and the pool of generators (C92)

The model runs the tasks of a parallel loop one after another. C91: with independent draws no way of interleaving them makes a
difference. C92: with concrete generators, whatever the pool hands out, the results are possible results of the model; with one
thread they are those of one generator; with equal seeds parallel tasks can give the same result.
-/

namespace RG.Props
open RG Prog
variable {α : Type}

/-! ### C91 -/

/-- **C91** However the draws of the tasks are interleaved, even if the order is chosen with knowledge of all draws made so far: the
probability of every property of the results is the one for running the tasks one after another, and so is the probability of a
failure. -/
theorem C91_probability (tasks : List (Prog α)) (q : Prog (List α)) (h : Runs tasks q) :
    (∀ (P : List α → Prop) [DecidablePred P], q.prob P = (inOrder tasks).prob P) ∧ q.probFail = (inOrder tasks).probFail := by
  have hp : ∀ (P : List α → Prop) [DecidablePred P], q.prob P = (inOrder tasks).prob P := by
    intro P _
    have e : ∀ p : Prog (List α), p.prob P = p.expect (onOk fun as => if P as then 1 else 0) := fun p => by
      unfold prob
      refine expect_congr _ _ _ fun r _ => ?_
      cases r <;> rfl
    rw [e, e, h.mass, mass_inOrder]
  refine ⟨hp, ?_⟩
  have e : ∀ p : Prog (List α), p.probFail = 1 - p.expect (onOk fun _ => 1) := fun p => by
    have h1 := expect_add p (fun r => match r with
      | .ok _ => (0 : ℚ)
      | _ => 1) (onOk fun _ => 1)
    rw [expect_congr p _ (fun _ => 1) (fun r _ => by cases r <;> simp [onOk]), expect_const] at h1
    have h2 : p.probFail = p.expect (fun r => match r with
      | .ok _ => (0 : ℚ)
      | _ => 1) := by
      unfold probFail; congr 1; funext r; cases r <;> rfl
    rw [h2]
    linarith
  rw [e, e, h.mass, mass_inOrder]

/-- **C91** The possible normal results are the same; the results of different tasks are independent; and a failure of the whole is one
of some task. -/
theorem C91_outcomes (tasks : List (Prog α)) (q : Prog (List α)) (h : Runs tasks q) :
    (∀ as, q.yields (.ok as) ↔ List.Forall₂ (fun p a => p.yields (.ok a)) tasks as) ∧
    (∀ as, q.yields (.ok as) ↔ (inOrder tasks).yields (.ok as)) ∧
    (q.yields .panic → ∃ p ∈ tasks, p.yields .panic) ∧ (q.yields .diverge → ∃ p ∈ tasks, p.yields .diverge) :=
  ⟨h.yields, fun as => (h.yields as).trans (yields_inOrder tasks as).symm, h.failure⟩

/-- **C91** The probability of a list of results is the product of the probabilities of the single results. -/
theorem C91_independent [DecidableEq α] (tasks : List (Prog α)) (q : Prog (List α)) (h : Runs tasks q) (as : List α)
    (hl : as.length = tasks.length) :
    q.prob (· = as) = (List.zipWith (fun p a => p.prob (· = a)) tasks as).prod := by
  rw [(C91_probability tasks q h).1]
  clear h
  induction tasks generalizing as with
  | nil => cases as with
    | nil => rfl
    | cons a as => simp at hl
  | cons p ps ih => cases as with
    | nil => simp at hl
    | cons a as =>
      rw [List.zipWith_cons_cons, List.prod_cons, ← ih as (by simpa using hl)]
      unfold prob
      rw [inOrder, expect_bind, mul_comm, ← expect_mul_left]
      refine expect_congr _ _ _ fun r _ => ?_
      cases r with
      | ok b =>
        simp only
        rw [expect_bind]
        by_cases hb : b = a
        · rw [if_pos hb, mul_one]
          refine expect_congr _ _ _ fun r _ => ?_
          cases r <;> simp [hb]
        · rw [if_neg hb, mul_zero, expect_congr _ _ (fun _ => 0), expect_const]
          intro r _
          cases r <;> simp [hb]
      | panic => simp
      | diverge => simp

/-- **C91** One after another is one of the ways to run the tasks. -/
theorem C91_sequential (tasks : List (Prog α)) : Runs tasks (inOrder tasks) := by
  have := runs_after [] tasks
  simp only [List.map_nil, List.nil_append, bind_pure] at this
  exact this

/-- **C91** The loops of the library: the model of `repeatn(.., n)` is the tasks in order, and so is the one of `par_iter_mut()`. -/
theorem C91_library {β : Type} (n : Nat) (p : Prog α) (f : β → Prog α) (l : List β) :
    Prog.replicate n p = inOrder (List.replicate n p) ∧ Prog.mapList f l = inOrder (l.map f) := by
  refine ⟨(inOrder_replicate n p).symm, ?_⟩
  induction l with
  | nil => rfl
  | cons b l ih => rw [List.map_cons, inOrder, ← ih]; rfl

/-- **C91** So a new population has the same distribution however the threads are scheduled. -/
theorem C91_generation {I Mo U : Type} [Individual I] (M : EvoModel I Mo U) (env : NumEnv) (model : Mo) (repro : ReproParams U × Nat)
    (population : Population I) (offspring : List I) (hsize : 2 ≤ repro.2 - offspring.length) (q : Prog (List I))
    (h : Runs (List.replicate (repro.2 - offspring.length) (M.breed env model population repro.1)) q)
    (P : List I → Prop) [DecidablePred P] :
    (q >>= fun new => pure (offspring ++ new)).prob P = (defaultGenerate M env model repro population offspring).prob P := by
  have e : defaultGenerate M env model repro population offspring =
      (Prog.replicate (repro.2 - offspring.length) (M.breed env model population repro.1) >>= fun new => pure (offspring ++ new)) := by
    obtain ⟨b, size⟩ := repro
    unfold defaultGenerate
    simp only at hsize ⊢
    rcases hs : size - offspring.length with _ | _ | n
    · omega
    · omega
    · rfl
  rw [e, prob_bind_pure _ _ (offspring ++ ·) (fun _ _ => rfl), prob_bind_pure _ _ (offspring ++ ·) (fun _ _ => rfl),
    (C91_probability _ q h).1, inOrder_replicate]

/-- Non-trivial instance: two coins; the second is thrown first, and is followed by the first. -/
example : ∃ q : Prog (List Nat), Runs [Prog.uniform 2, Prog.uniform 2] q ∧ q ≠ inOrder [Prog.uniform 2, Prog.uniform 2] ∧
    q.prob (· = [0, 1]) = 1 / 4 := by
  have hu : Prog.uniform 2 = pick 1 fun i => done (.ok i) := rfl
  have h : Runs [Prog.uniform 2, Prog.uniform 2] (pick 1 fun j => pick 1 fun i => done (.ok [i, j])) := by
    refine Runs.draw [Prog.uniform 2] 1 (fun i => done (.ok i)) [] _ fun j _ => ?_
    refine Runs.draw [] 1 (fun i => done (.ok i)) [done (.ok j)] _ fun i _ => ?_
    exact Runs.finished [i, j]
  refine ⟨_, h, ?_, ?_⟩
  · intro hc
    have := congrArg (fun p => p.exec (fun (s : List Nat) _ => (s.headD 0, s.tail)) [0, 1]) hc
    revert this
    decide
  · rw [C91_independent _ _ h _ rfl]
    have : ∀ a : Nat, a < 2 → (Prog.uniform 2).prob (· = a) = 1 / 2 := by decide +kernel
    simp [this]
    norm_num

/-! ### C92 -/

variable {σ : Type}

/-- **C92** Whatever the threads do and whatever the generators are: the result of every item is a possible outcome of its program. So a
property of all outcomes holds for every schedule. -/
theorem C92_outcomes (make : Nat → σ) (draw : σ → Nat → Nat × σ) (hd : ∀ s n, (draw s n).1 ≤ n) (item : Nat → Prog α)
    (pool : RngPool σ) (events : List Event) (m : Machine σ α) (h : (Machine.init pool).steps make draw item events = some m) :
    (∀ i r, m.result i = some r → (item i).yields r) ∧
    ∀ n as, m.collected n as → (inOrder ((List.range n).map item)).yields (.ok as) := by
  have h1 := Machine.result_yields hd events (m := Machine.init pool) (fun i r hr => by cases hr) h
  refine ⟨h1, fun n as ⟨hl, hc⟩ => ?_⟩
  rw [yields_inOrder, List.forall₂_iff_get]
  refine ⟨by simp [hl], fun i hi hi' => ?_⟩
  have := h1 i _ (hc i hi')
  simpa using this

/-- **C92** In particular the offspring generated with the pool is an outcome of the model of `generate_new_population`. -/
theorem C92_generate {I Mo U : Type} [Individual I] (M : EvoModel I Mo U) (env : NumEnv) (make : Nat → σ) (draw : σ → Nat → Nat × σ)
    (hd : ∀ s n, (draw s n).1 ≤ n) (model : Mo) (repro : ReproParams U × Nat) (population : Population I) (offspring : List I)
    (pool : RngPool σ) (offspring' : List I) (pool' : RngPool σ)
    (h : PooledGenerate M env make draw model repro population offspring pool offspring' pool') :
    (defaultGenerate M env model repro population offspring).yields (.ok offspring') := by
  obtain ⟨b, size⟩ := repro
  unfold PooledGenerate at h
  unfold defaultGenerate
  simp only at h ⊢
  rcases hs : size - offspring.length with _ | _ | n
  · rw [hs] at h
    exact congrArg Res.ok h.1
  · rw [hs] at h
    obtain ⟨x, g', h1, h2, -⟩ := h
    simp only [yields_bind_ok, yields_pure, Res.ok.injEq]
    refine ⟨x, ?_, h2⟩
    have := exec_yields draw hd (M.breed env model population b) (pool.pull make).1
    rwa [h1] at this
  · rw [hs] at h
    obtain ⟨events, m, new, h1, h2, -, h4, -⟩ := h
    simp only [yields_bind_ok, yields_pure, Res.ok.injEq]
    refine ⟨new, ?_, h4⟩
    have := (C92_outcomes make draw hd _ pool events m h1).2 _ _ h2
    rw [List.map_const', List.length_range, inOrder_replicate] at this
    exact this

/-- The schedule of a single thread: the items are cut into pieces of the given sizes, and one piece is handled after the other. -/
def oneThread : (piece first : Nat) → (sizes : List Nat) → List Event
  | _, _, [] => []
  | j, i, s :: sizes => .start j :: (Machine.items j i s ++ .finish j :: oneThread (j + 1) (i + s) sizes)

private theorem replicate_add_exec (draw : σ → Nat → Nat × σ) (p : Prog α) (s t : Nat) (g g' : σ) (as : List α)
    (h : (Prog.replicate (s + t) p).exec draw g = (.ok as, g')) :
    ∃ l g1 r, (Prog.replicate s p).exec draw g = (.ok l, g1) ∧ (Prog.replicate t p).exec draw g1 = (.ok r, g') ∧ as = l ++ r := by
  induction s generalizing g as with
  | zero => exact ⟨[], g, as, rfl, by rwa [Nat.zero_add] at h, rfl⟩
  | succ s ih =>
    rw [Nat.succ_add] at h
    obtain ⟨a, g1, rest, h1, h2, rfl⟩ := exec_replicate_succ h
    obtain ⟨l, g2, r, h3, h4, rfl⟩ := ih g1 rest h2
    refine ⟨a :: l, g2, r, ?_, h4, rfl⟩
    unfold Prog.replicate
    rw [exec_bind, h1]
    simp only
    rw [exec_bind, h3]
    rfl

private theorem oneThread_steps (make : Nat → σ) (draw : σ → Nat → Nat × σ) (p : Prog α) (sizes : List Nat) (j : Nat)
    (idle : List σ) (made : Nat) (before as : List α) (g g' : σ)
    (h : (Prog.replicate sizes.sum p).exec draw g = (.ok as, g')) :
    Machine.steps make draw (fun _ => p) ⟨⟨g :: idle, made⟩, fun _ => none, Machine.filled before⟩
        (oneThread j before.length sizes) =
      some ⟨⟨g' :: idle, made⟩, fun _ => none, Machine.filled (before ++ as)⟩ := by
  induction sizes generalizing j before as g with
  | nil =>
    simp only [List.sum_nil, Prog.replicate, exec, pure_def, Prod.mk.injEq, Res.ok.injEq] at h
    obtain ⟨rfl, rfl⟩ := h
    simp [oneThread, Machine.steps]
  | cons s sizes ih =>
    rw [List.sum_cons] at h
    obtain ⟨l, g1, r, h1, h2, rfl⟩ := replicate_add_exec draw p s sizes.sum g g' as h
    have hlen : l.length = s := exec_replicate_length h1
    have e1 : Machine.step make draw (fun _ => p) ⟨⟨g :: idle, made⟩, fun _ => none, Machine.filled before⟩ (.start j) =
        some ⟨⟨idle, made⟩, Function.update (fun _ => none) j (some g), Machine.filled before⟩ := rfl
    have e2 := Machine.steps_items (make := make) p j ⟨idle, made⟩ s before l g g1 h1
    have e3 : Machine.step make draw (fun _ => p)
        ⟨⟨idle, made⟩, Function.update (fun _ => none) j (some g1), Machine.filled (before ++ l)⟩ (.finish j) =
        some ⟨⟨g1 :: idle, made⟩, fun _ => none, Machine.filled (before ++ l)⟩ := by
      simp [Machine.step, RngPool.attach]
    rw [oneThread]
    simp only [Machine.steps, e1, Option.bind_eq_bind, Option.bind_some]
    rw [Machine.steps_append, e2]
    simp only [Option.bind_some, Machine.steps, e3, Option.bind_eq_bind]
    have := ih (j + 1) (before ++ l) r g1 h2
    rw [List.length_append, hlen, List.append_assoc] at this
    exact this

/-- **C92** With one thread (one piece after the other, in any cutting): the results, and the generator afterwards, are those of running
the tasks one after another with the generator on top of the pool. So with a fixed seed and one thread a run can be repeated. -/
theorem C92_one_thread (make : Nat → σ) (draw : σ → Nat → Nat × σ) (p : Prog α) (sizes : List Nat) (idle : List σ) (made : Nat)
    (g g' : σ) (as : List α) (h : (Prog.replicate sizes.sum p).exec draw g = (.ok as, g')) :
    ∃ m, (Machine.init ⟨g :: idle, made⟩).steps make draw (fun _ => p) (oneThread 0 0 sizes) = some m ∧
      m.collected sizes.sum as ∧ (∀ j, m.running j = none) ∧ m.pool = ⟨g' :: idle, made⟩ := by
  have := oneThread_steps make draw p sizes 0 idle made [] as g g' h
  refine ⟨_, this, ⟨exec_replicate_length h, fun i hi => ?_⟩, fun _ => rfl, rfl⟩
  simp [Machine.filled, hi]

/-- **C92** So the model of `generate_new_population`, executed with one generator, is what one thread does. -/
theorem C92_generate_one_thread {I Mo U : Type} [Individual I] (M : EvoModel I Mo U) (env : NumEnv) (make : Nat → σ)
    (draw : σ → Nat → Nat × σ) (model : Mo) (repro : ReproParams U × Nat) (population : Population I) (offspring offspring' : List I)
    (idle : List σ) (made : Nat) (g g' : σ)
    (h : (defaultGenerate M env model repro population offspring).exec draw g = (.ok offspring', g')) :
    PooledGenerate M env make draw model repro population offspring ⟨g :: idle, made⟩ offspring' ⟨g' :: idle, made⟩ := by
  obtain ⟨b, size⟩ := repro
  unfold defaultGenerate at h
  unfold PooledGenerate
  simp only at h ⊢
  rcases hs : size - offspring.length with _ | _ | n
  · rw [hs] at h
    simp only [exec, pure_def, Prod.mk.injEq, Res.ok.injEq] at h
    exact ⟨h.1.symm, by rw [h.2]⟩
  · rw [hs] at h
    simp only at h
    rw [exec_bind] at h
    rcases hb : (M.breed env model population b).exec draw g with ⟨r, g1⟩
    rw [hb] at h
    cases r with
    | ok x =>
      simp only [exec, pure_def, Prod.mk.injEq, Res.ok.injEq] at h
      refine ⟨x, g1, hb, h.1.symm, ?_⟩
      rw [h.2]; rfl
    | panic => simp at h
    | diverge => simp at h
  · rw [hs] at h
    simp only at h
    rw [exec_bind] at h
    rcases hb : (Prog.replicate (n + 1 + 1) (M.breed env model population b)).exec draw g with ⟨r, g1⟩
    rw [hb] at h
    cases r with
    | ok new =>
      simp only [exec, pure_def, Prod.mk.injEq, Res.ok.injEq] at h
      obtain ⟨m, h1, h2, h3, h4⟩ := C92_one_thread make draw (M.breed env model population b) [n + 1 + 1] idle made g g1 new
        (by simpa using hb)
      refine ⟨_, m, new, h1, by simpa using h2, h3, h.1.symm, ?_⟩
      rw [h4, h.2]
    | panic => simp at h
    | diverge => simp at h

/-- **C92** Conversely every outcome of the model comes about with some generator. -/
theorem C92_all_outcomes (p : Prog α) (n : Nat) (as : List α) (h : (Prog.replicate n p).yields (.ok as)) :
    ∃ (answers : List Nat) (events : List Event) (m : Machine (List Nat) α),
      (Machine.init (RngPool.new (fun _ => answers) 1)).steps (fun _ => answers)
        (fun s k => (min (s.headD 0) k, s.tail)) (fun _ => p) events = some m ∧ m.collected n as := by
  obtain ⟨answers, ha⟩ := yields_exec _ _ h
  obtain ⟨m, h1, h2, -, -⟩ := C92_one_thread (fun _ => answers) (fun (s : List Nat) k => (min (s.headD 0) k, s.tail)) p [n] [] 1 answers
    _ as (by rw [List.sum_singleton]; exact Prod.ext ha rfl)
  exact ⟨answers, _, m, h1, by simpa using h2⟩

/-! No generator is used twice at the same time: generators carry the number of the call of `M::rng` that made them. -/

/-- The numbers of the idle generators and of those in use are all different. -/
private def Exclusive {τ : Type} (m : Machine (Nat × τ) α) : Prop :=
  (m.pool.idle.map Prod.fst).Nodup ∧ (∀ g ∈ m.pool.idle, g.1 < m.pool.made) ∧
  (∀ j g, m.running j = some g → g.1 < m.pool.made ∧ g.1 ∉ m.pool.idle.map Prod.fst) ∧
  ∀ j j' g g', m.running j = some g → m.running j' = some g' → g.1 = g'.1 → j = j'

private theorem exec_tag {τ : Type} {draw : Nat × τ → Nat → Nat × (Nat × τ)} (hd : ∀ s n, (draw s n).2.1 = s.1) (p : Prog α) (s : Nat × τ) :
    (p.exec draw s).2.1 = s.1 := by
  induction p generalizing s with
  | done r => rfl
  | pick n k ih => exact (ih _ _).trans (hd s n)

private theorem exclusive_step {τ : Type} {seed : Nat → τ} {draw : Nat × τ → Nat → Nat × (Nat × τ)} (hd : ∀ s n, (draw s n).2.1 = s.1)
    {item : Nat → Prog α} {m m' : Machine (Nat × τ) α} {e : Event} (h : Exclusive m)
    (hs : m.step (fun i => (i, seed i)) draw item e = some m') : Exclusive m' := by
  obtain ⟨h1, h2, h3, h4⟩ := h
  cases e with
  | start j =>
    simp only [Machine.step] at hs
    split at hs
    · cases hs
    rename_i hj
    rw [← Option.some.inj hs]
    unfold RngPool.pull
    split
    · rename_i g idle hi
      rw [hi] at h1 h2 h3
      simp only [List.map_cons, List.nodup_cons] at h1
      refine ⟨h1.2, fun x hx => h2 x (List.mem_cons_of_mem _ hx), fun j' x hx => ?_, fun j1 j2 x y hx hy hxy => ?_⟩
      · simp only [Function.update_apply] at hx
        split at hx
        · cases hx; exact ⟨h2 _ (by simp), h1.1⟩
        · obtain ⟨h5, h6⟩ := h3 j' x hx
          exact ⟨h5, fun hc => h6 (by simp only [List.map_cons, List.mem_cons]; exact Or.inr hc)⟩
      · simp only [Function.update_apply] at hx hy
        split at hx <;> split at hy
        · rename_i e1 e2; rw [e1, e2]
        · cases hx; exact absurd (by simp [hxy]) (h3 j2 y hy).2
        · cases hy; exact absurd (by simp [hxy]) (h3 j1 x hx).2
        · exact h4 j1 j2 x y hx hy hxy
    · rename_i hi
      refine ⟨by simp, by simp, fun j' x hx => ?_, fun j1 j2 x y hx hy hxy => ?_⟩
      · simp only [Function.update_apply] at hx
        split at hx
        · cases hx; simp
        · have := (h3 j' x hx).1
          simp only [List.map_nil, List.not_mem_nil, not_false_eq_true, and_true]
          omega
      · simp only [Function.update_apply] at hx hy
        split at hx <;> split at hy
        · rename_i e1 e2; rw [e1, e2]
        · cases hx; have := (h3 j2 y hy).1; simp only at hxy; omega
        · cases hy; have := (h3 j1 x hx).1; simp only at hxy; omega
        · exact h4 j1 j2 x y hx hy hxy
  | item j i =>
    simp only [Machine.step] at hs
    split at hs
    · rename_i g hj hi
      rw [← Option.some.inj hs]
      have ht := exec_tag hd (item i) g
      refine ⟨h1, h2, fun j' x hx => ?_, fun j1 j2 x y hx hy hxy => ?_⟩
      · simp only [Function.update_apply] at hx
        split at hx
        · cases hx; rw [ht]; exact h3 j g hj
        · exact h3 j' x hx
      · simp only [Function.update_apply] at hx hy
        split at hx <;> split at hy
        · rename_i e1 e2; rw [e1, e2]
        · rename_i e1 e2; cases hx; rw [ht] at hxy; rw [e1]; exact h4 j j2 g y hj hy hxy
        · rename_i e1 e2; cases hy; rw [ht] at hxy; rw [e2]; exact h4 j1 j x g hx hj hxy
        · exact h4 j1 j2 x y hx hy hxy
    · cases hs
  | finish j =>
    simp only [Machine.step] at hs
    split at hs
    · rename_i g hj
      rw [← Option.some.inj hs]
      obtain ⟨h5, h6⟩ := h3 j g hj
      refine ⟨by simp only [RngPool.attach, List.map_cons, List.nodup_cons]; exact ⟨h6, h1⟩, fun x hx => ?_, fun j' x hx => ?_,
        fun j1 j2 x y hx hy hxy => ?_⟩
      · rcases List.mem_cons.1 hx with rfl | hx
        · exact h5
        · exact h2 x hx
      · simp only [Function.update_apply] at hx
        split at hx
        · cases hx
        · rename_i hne
          refine ⟨(h3 j' x hx).1, ?_⟩
          simp only [RngPool.attach, List.map_cons, List.mem_cons, not_or]
          exact ⟨fun hc => hne (h4 j' j x g hx hj hc), (h3 j' x hx).2⟩
      · simp only [Function.update_apply] at hx hy
        split at hx <;> split at hy
        · cases hx
        · cases hx
        · cases hy
        · exact h4 j1 j2 x y hx hy hxy
    · cases hs

/-- **C92** No two pieces use the same generator at the same time, and a generator in use is not in the pool: whatever the threads do,
starting with a new pool, the generators that are idle or in use come from different calls of `M::rng()`. -/
theorem C92_exclusive {τ : Type} (seed : Nat → τ) (draw : Nat × τ → Nat → Nat × (Nat × τ)) (hd : ∀ s n, (draw s n).2.1 = s.1)
    (item : Nat → Prog α) (threads : Nat) (events : List Event) (m : Machine (Nat × τ) α)
    (h : (Machine.init (RngPool.new (fun i => (i, seed i)) threads)).steps (fun i => (i, seed i)) draw item events = some m) :
    (m.pool.idle.map Prod.fst).Nodup ∧ (∀ j g, m.running j = some g → g.1 ∉ m.pool.idle.map Prod.fst) ∧
    ∀ j j' g g', m.running j = some g → m.running j' = some g' → g.1 = g'.1 → j = j' := by
  have h0 : Exclusive (Machine.init (α := α) (RngPool.new (fun i => (i, seed i)) threads)) := by
    refine ⟨?_, ?_, (fun j g hg => by cases hg), (fun j j' g g' hg => by cases hg)⟩
    · have e : Prod.fst ∘ (fun i : Nat => (i, seed i)) = id := rfl
      simp only [Machine.init, RngPool.new, List.map_map, e, List.map_id]
      exact List.nodup_reverse.2 List.nodup_range
    · intro g hg
      simp only [Machine.init, RngPool.new, List.mem_map, List.mem_reverse, List.mem_range] at hg ⊢
      obtain ⟨i, hi, rfl⟩ := hg
      exact hi
  have key : ∀ (events : List Event) (m0 : Machine (Nat × τ) α), Exclusive m0 →
      m0.steps (fun i => (i, seed i)) draw item events = some m → Exclusive m := by
    intro events
    induction events with
    | nil => intro m0 h0 h; cases h; exact h0
    | cons e es ih =>
      intro m0 h0 h
      simp only [Machine.steps] at h
      cases hs : m0.step (fun i => (i, seed i)) draw item e with
      | none => rw [hs] at h; cases h
      | some m1 =>
        rw [hs] at h
        exact ih m1 (exclusive_step hd h0 hs) h
  obtain ⟨h1, -, h3, h4⟩ := key events _ h0 h
  exact ⟨h1, fun j g hg => (h3 j g hg).2, h4⟩

/-- The piece that runs an item. -/
def Event.piece : Event → Option Nat
  | .item j _ => some j
  | _ => none

private theorem same_seed_steps (draw : σ → Nat → Nat × σ) (p : Prog α) (seed : σ) (events : List Event) (m m' : Machine σ α)
    (used : List Nat) (hfin : ∀ j, Event.finish j ∉ events) (hnd : (used ++ events.filterMap Event.piece).Nodup)
    (hidle : ∀ g ∈ m.pool.idle, g = seed) (hrun : ∀ j, j ∉ used → m.running j = none ∨ m.running j = some seed)
    (hres : ∀ i r, m.result i = some r → r = (p.exec draw seed).1)
    (h : m.steps (fun _ => seed) draw (fun _ => p) events = some m') :
    ∀ i r, m'.result i = some r → r = (p.exec draw seed).1 := by
  induction events generalizing m used with
  | nil => cases h; exact hres
  | cons e es ih =>
    simp only [Machine.steps] at h
    cases hs : m.step (fun _ => seed) draw (fun _ => p) e with
    | none => rw [hs] at h; cases h
    | some m1 =>
      rw [hs] at h
      have hfin' : ∀ j, Event.finish j ∉ es := fun j hj => hfin j (List.mem_cons_of_mem _ hj)
      cases e with
      | start j =>
        simp only [Machine.step] at hs
        split at hs
        · cases hs
        · have hm := (Option.some.inj hs).symm
          refine ih m1 used hfin' hnd ?_ ?_ (by rw [hm]; exact hres) h <;> rw [hm]
          · intro g hg
            refine hidle g ?_
            simp only [RngPool.pull] at hg
            split at hg
            · rename_i h1; rw [h1]; exact List.mem_cons_of_mem _ hg
            · cases hg
          · intro j' hj'
            simp only [Function.update_apply]
            split
            · right
              simp only [RngPool.pull]
              split
              · rename_i g _ h1; rw [hidle g (by rw [h1]; simp)]
              · rfl
            · exact hrun j' hj'
      | item j i =>
        have hj : j ∉ used := by
          simp only [List.filterMap_cons, Event.piece] at hnd
          have := (List.nodup_append.1 hnd).2.2
          exact fun hc => this j hc j (by simp) rfl
        simp only [Machine.step] at hs
        split at hs
        · rename_i g hg hi
          have hg' : g = seed := by
            rcases hrun j hj with h1 | h1
            · rw [h1] at hg; cases hg
            · rw [h1] at hg; exact (Option.some.inj hg).symm
          have hm := (Option.some.inj hs).symm
          refine ih m1 (used ++ [j]) hfin' ?_ (by rw [hm]; exact hidle) ?_ ?_ h
          on_goal 2 => rw [hm]
          on_goal 3 => rw [hm]
          · simpa [Event.piece] using hnd
          · intro j' hj'
            simp only [List.mem_append, List.mem_singleton, not_or] at hj'
            simp only [Function.update_apply, if_neg hj'.2]
            exact hrun j' hj'.1
          · intro i' r hr
            simp only [Function.update_apply] at hr
            split at hr
            · cases hr; rw [hg']
            · exact hres i' r hr
        · cases hs
      | finish j => exact absurd (List.mem_cons_self) (hfin j)

private theorem finish_results (make : Nat → σ) (draw : σ → Nat → Nat × σ) (item : Nat → Prog α) (events : List Event) (m m' : Machine σ α)
    (hf : ∀ e ∈ events, ∃ j, e = Event.finish j) (h : m.steps make draw item events = some m') : m'.result = m.result := by
  induction events generalizing m with
  | nil => cases h; rfl
  | cons e es ih =>
    simp only [Machine.steps] at h
    obtain ⟨j, rfl⟩ := hf e (by simp)
    cases hs : m.step make draw item (.finish j) with
    | none => rw [hs] at h; cases h
    | some m1 =>
      rw [hs] at h
      rw [ih m1 (fun e he => hf e (List.mem_cons_of_mem _ he)) h]
      simp only [Machine.step] at hs
      split at hs
      · cases hs; rfl
      · cases hs

/-- **C92** If `M::rng()` always returns a generator with the same seed, threads do the same work: when each item is handled by a piece of
its own and no piece ends before the last item is done, all results are equal, however many threads the pool was made for. -/
theorem C92_same_seed (draw : σ → Nat → Nat × σ) (p : Prog α) (seed : σ) (threads : Nat) (events finishes : List Event)
    (m : Machine σ α) (n : Nat) (as : List α) (hfin : ∀ j, Event.finish j ∉ events) (hfin' : ∀ e ∈ finishes, ∃ j, e = Event.finish j)
    (hown : (events.filterMap Event.piece).Nodup)
    (h : (Machine.init (RngPool.new (fun _ => seed) threads)).steps (fun _ => seed) draw (fun _ => p) (events ++ finishes) = some m)
    (hc : m.collected n as) (hn : 0 < n) : ∃ a, (p.exec draw seed).1 = .ok a ∧ as = List.replicate n a := by
  rw [Machine.steps_append] at h
  cases h1 : (Machine.init (RngPool.new (fun _ => seed) threads)).steps (fun _ => seed) draw (fun _ => p) events with
  | none => rw [h1] at h; cases h
  | some m1 =>
    rw [h1] at h
    have hr := finish_results _ _ _ finishes m1 m hfin' h
    have key := same_seed_steps draw p seed events _ m1 [] hfin (by simpa using hown)
      (by intro g hg; simp [Machine.init, RngPool.new] at hg; exact hg.2) (fun j _ => Or.inl rfl) (fun i r hr => by cases hr) h1
    rw [← hr] at key
    obtain ⟨hl, hc⟩ := hc
    have h0 := key 0 _ (hc 0 (by omega))
    refine ⟨as[0], h0.symm, ?_⟩
    refine List.ext_getElem (by simp [hl]) fun i h2 h3 => ?_
    have := key i _ (hc i h2)
    rw [← h0, Res.ok.injEq] at this
    simpa using this

/-- Non-trivial instance: two numbers below 10, from two threads whose generators have the same seed; and from two threads with
different seeds. -/
example :
    (((Machine.init (RngPool.new (fun _ => 7) 2)).steps (fun _ => 7) (fun s n => (s % (n + 1), s * 5 + 3)) (fun _ => Prog.uniform 10)
      [.start 0, .start 1, .item 1 1, .item 0 0, .finish 0, .finish 1]).map fun m => (m.result 0, m.result 1)) =
        some (some (.ok 7), some (.ok 7)) ∧
    (((Machine.init (RngPool.new (fun i => i) 2)).steps (fun i => i) (fun s n => (s % (n + 1), s * 5 + 3)) (fun _ => Prog.uniform 10)
      [.start 0, .start 1, .item 1 1, .item 0 0, .finish 0, .finish 1]).map fun m => (m.result 0, m.result 1)) =
        some (some (.ok 1), some (.ok 0)) := by
  decide +kernel

/-- One thread, two pieces: the second piece goes on with the generator of the first. -/
example :
    (((Machine.init (RngPool.new (fun _ => 7) 1)).steps (fun _ => 7) (fun s n => (s % (n + 1), s * 5 + 3)) (fun _ => Prog.uniform 10)
      (oneThread 0 0 [1, 1])).map fun m => (m.result 0, m.result 1)) = some (some (.ok 7), some (.ok 8)) ∧
    ((Prog.replicate 2 (Prog.uniform 10)).exec (fun s n => (s % (n + 1), s * 5 + 3)) 7).1 = .ok [7, 8] := by
  decide +kernel

end RG.Props
