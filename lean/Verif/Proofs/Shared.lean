import Verif.Shared
import Verif.Proofs.Evolution
import Verif.Proofs.Parallel

/-!
# Helper lemmas for shared state
-/

namespace RG
open Prog
variable {W α β : Type}

namespace SProg

theorem pure_def (a : α) : (pure a : SProg W α) = done (.ok a) := rfl

theorem over_pure (ws : List W) (a : α) : (pure a : SProg W α).over ws = (pure a : Prog α) := rfl

theorem over_bind (ws : List W) (p : SProg W α) (f : α → SProg W β) : (p >>= f).over ws = p.over ws >>= fun a => (f a).over ws := by
  induction p with
  | done r => cases r <;> rfl
  | pick n k ih =>
    show Prog.pick n _ = Prog.pick n _
    congr 1; funext i; exact ih i
  | touch new k ih =>
    show Prog.pick _ _ = Prog.pick _ _
    congr 1; funext j
    show Option.elim ws[j]? _ _ = Prog.bind (Option.elim ws[j]? _ _) _
    cases ws[j]? with
    | none => rfl
    | some w => exact ih w

theorem over_ofProg (ws : List W) (p : Prog α) : (ofProg p : SProg W α).over ws = p := by
  induction p with
  | done r => rfl
  | pick n k ih => show Prog.pick n _ = _; congr 1; funext i; exact ih i

theorem over_ite (ws : List W) (c : Prop) [Decidable c] (p q : SProg W α) :
    (if c then p else q).over ws = if c then p.over ws else q.over ws := by split <;> rfl

/-- An outcome in shared state is an outcome if each access finds one of finitely many states. -/
theorem ends_over {others : W → W → Prop} {p : SProg W α} {w w' : W} {r : Res α} (h : p.ends others w r w') :
    ∃ l : List W, ∀ ws, l ⊆ ws → (p.over ws).yields r := by
  induction p generalizing w with
  | done r0 => exact ⟨[], fun ws _ => h.1⟩
  | pick n k ih =>
    obtain ⟨i, hi, h⟩ := h
    obtain ⟨l, hl⟩ := ih i h
    exact ⟨l, fun ws hs => ⟨i, hi, hl ws hs⟩⟩
  | touch new k ih =>
    obtain ⟨w1, -, h⟩ := h
    obtain ⟨l, hl⟩ := ih w1 h
    refine ⟨w1 :: l, fun ws hs => ?_⟩
    obtain ⟨j, hj, e⟩ := List.getElem_of_mem (hs List.mem_cons_self)
    refine ⟨j, by omega, ?_⟩
    show (Option.elim ws[j]? _ _ : Prog α).yields r
    rw [List.getElem?_eq_getElem hj, e]
    exact hl ws fun x hx => hs (List.mem_cons_of_mem _ hx)

/-- Conversely, if other threads may do anything. -/
theorem over_ends {p : SProg W α} {ws : List W} (hws : ws ≠ []) {r : Res α} (h : (p.over ws).yields r) (w : W) :
    ∃ w', p.ends (fun _ _ => True) w r w' := by
  induction p generalizing w with
  | done r0 => exact ⟨w, h, rfl⟩
  | pick n k ih =>
    obtain ⟨i, hi, h⟩ := h
    obtain ⟨w', h'⟩ := ih i h w
    exact ⟨w', i, hi, h'⟩
  | touch new k ih =>
    obtain ⟨j, hj, h⟩ := h
    have : j < ws.length := by have := List.length_pos_iff.2 hws; omega
    replace h : (Option.elim ws[j]? (.done .diverge) fun w => (k w).over ws : Prog α).yields r := h
    rw [List.getElem?_eq_getElem this] at h
    obtain ⟨w', h'⟩ := ih _ h (new ws[j])
    exact ⟨w', ws[j], trivial, h'⟩

/-- Fewer changes by other threads, fewer outcomes. -/
theorem ends_mono {R S : W → W → Prop} (hRS : ∀ w w', R w w' → S w w') {p : SProg W α} {w w' : W} {r : Res α} (h : p.ends R w r w') :
    p.ends S w r w' := by
  induction p generalizing w with
  | done r0 => exact h
  | pick n k ih => obtain ⟨i, hi, h⟩ := h; exact ⟨i, hi, ih i h⟩
  | touch new k ih => obtain ⟨w1, h1, h⟩ := h; exact ⟨w1, hRS _ _ h1, ih w1 h⟩

theorem ends_ofProg (others : W → W → Prop) (p : Prog α) (w w' : W) (r : Res α) :
    (ofProg p : SProg W α).ends others w r w' ↔ p.yields r ∧ w' = w := by
  induction p with
  | done r0 => exact Iff.rfl
  | pick n k ih =>
    show (∃ i, i ≤ n ∧ _) ↔ (∃ i, i ≤ n ∧ _) ∧ _
    constructor
    · rintro ⟨i, hi, h⟩
      exact ⟨⟨i, hi, ((ih i).1 h).1⟩, ((ih i).1 h).2⟩
    · rintro ⟨⟨i, hi, h⟩, e⟩
      exact ⟨i, hi, (ih i).2 ⟨h, e⟩⟩

end SProg

/-- The program can fail. -/
def Prog.Fails (p : Prog α) : Prop := p.yields .panic ∨ p.yields .diverge

/-- `p` can end normally with any of the results of `r`, and fail if `r` is a failure. -/
def Prog.Can (p : Prog α) : Res α → Prop
  | .ok a => p.yields (.ok a)
  | _ => p.Fails

theorem Prog.Can.of_yields {p : Prog α} {r : Res α} (h : p.yields r) : p.Can r := by
  cases r with
  | ok a => exact h
  | panic => exact .inl h
  | diverge => exact .inr h

theorem Prog.Fails.bind {p : Prog α} (h : p.Fails) (f : α → Prog β) : (p >>= f).Fails := by
  rcases h with h | h
  · exact .inl ((yields_bind _ _ _).2 (.inr (.inl ⟨h, rfl⟩)))
  · exact .inr ((yields_bind _ _ _).2 (.inr (.inr ⟨h, rfl⟩)))

theorem Prog.Fails.then {p : Prog α} {f : α → Prog β} {a : α} (h : p.yields (.ok a)) (hf : (f a).Fails) : (p >>= f).Fails := by
  rcases hf with hf | hf
  · exact .inl ((yields_bind _ _ _).2 (.inl ⟨a, h, hf⟩))
  · exact .inr ((yields_bind _ _ _).2 (.inl ⟨a, h, hf⟩))

theorem Prog.Can.bind {p : Prog α} {f : α → Prog β} {a : α} {r : Res β} (h : p.yields (.ok a)) (hf : (f a).Can r) : (p >>= f).Can r := by
  cases r with
  | ok b => exact (yields_bind_ok _ _ _).2 ⟨a, h, hf⟩
  | panic => exact Prog.Fails.then h hf
  | diverge => exact Prog.Fails.then h hf

theorem fails_inOrder {tasks : List (Prog α)} {p : Prog α} (hp : p ∈ tasks) (h : p.Fails) : (inOrder tasks).Fails := by
  induction tasks with
  | nil => cases hp
  | cons t ts ih =>
    rcases List.mem_cons.1 hp with rfl | hp
    · exact h.bind _
    · obtain ⟨r, hr⟩ := t.exists_yields
      cases r with
      | ok a => exact Prog.Fails.then hr ((ih hp).bind _)
      | panic => exact Prog.Fails.bind (.inl hr) _
      | diverge => exact Prog.Fails.bind (.inr hr) _

/-- What parallel programs can do: each has its result, or one of them fails. -/
def TasksCan (ps : List (Prog α)) : Res (List α) → Prop
  | .ok as => List.Forall₂ (fun p a => p.yields (.ok a)) ps as
  | _ => ∃ p ∈ ps, p.Fails

theorem TasksCan.inOrder {ps : List (Prog α)} {r : Res (List α)} (h : TasksCan ps r) : (inOrder ps).Can r := by
  cases r with
  | ok as => exact (yields_inOrder _ _).2 h
  | panic => obtain ⟨p, hp, hf⟩ := h; exact fails_inOrder hp hf
  | diverge => obtain ⟨p, hp, hf⟩ := h; exact fails_inOrder hp hf

/-- A task that can do more. -/
theorem TasksCan.put {l1 l2 : List (Prog α)} {p q : Prog α} (hpq : ∀ x, p.yields x → q.yields x) {r : Res (List α)}
    (h : TasksCan (l1 ++ p :: l2) r) : TasksCan (l1 ++ q :: l2) r := by
  have fail : (∃ t ∈ l1 ++ p :: l2, t.Fails) → ∃ t ∈ l1 ++ q :: l2, t.Fails := by
    rintro ⟨t, ht, hf⟩
    rcases List.mem_append.1 ht with ht | ht
    · exact ⟨t, List.mem_append_left _ ht, hf⟩
    · rcases List.mem_cons.1 ht with rfl | ht
      · exact ⟨q, List.mem_append_right _ List.mem_cons_self, hf.imp (hpq _) (hpq _)⟩
      · exact ⟨t, List.mem_append_right _ (List.mem_cons_of_mem _ ht), hf⟩
  cases r with
  | ok as =>
    obtain ⟨l1', a, l2', rfl, f1, f2, f3⟩ := (forall₂_split _ _ _ _).1 h
    exact (forall₂_split _ _ _ _).2 ⟨l1', a, l2', rfl, f1, hpq _ f2, f3⟩
  | panic => exact fail h
  | diverge => exact fail h

/-- Interleaved tasks: each has its outcome if each access finds one of finitely many states. -/
theorem Par.over {others : W → W → Prop} {tasks : List (SProg W α)} {w w' : W} {r : Res (List α)} (h : Par others tasks w r w') :
    ∃ l : List W, ∀ ws, l ⊆ ws → TasksCan (tasks.map fun p => p.over ws) r := by
  induction h with
  | finished as w =>
    refine ⟨[], fun ws _ => ?_⟩
    show List.Forall₂ _ _ as
    rw [List.forall₂_map_left_iff, List.forall₂_map_left_iff]
    exact List.forall₂_same.2 fun a _ => rfl
  | failed tasks w r r' mem fails =>
    refine ⟨[], fun ws _ => ?_⟩
    rcases fails with ⟨rfl, rfl⟩ | ⟨rfl, rfl⟩
    · exact ⟨_, List.mem_map_of_mem mem, .inl rfl⟩
    · exact ⟨_, List.mem_map_of_mem mem, .inr rfl⟩
  | draw before n k after i hi w w' r next ih =>
    obtain ⟨l, hl⟩ := ih
    refine ⟨l, fun ws hs => ?_⟩
    have := hl ws hs
    rw [List.map_append, List.map_cons] at this ⊢
    refine this.put (q := (SProg.pick n k).over ws) fun x hx => ⟨i, hi, hx⟩
  | access before new k after w w1 w' r change next ih =>
    obtain ⟨l, hl⟩ := ih
    refine ⟨w1 :: l, fun ws hs => ?_⟩
    have := hl ws fun x hx => hs (List.mem_cons_of_mem _ hx)
    rw [List.map_append, List.map_cons] at this ⊢
    refine this.put fun x hx => ?_
    obtain ⟨j, hj, e⟩ := List.getElem_of_mem (hs List.mem_cons_self)
    refine ⟨j, by omega, ?_⟩
    show (Option.elim ws[j]? _ _ : Prog α).yields x
    rw [List.getElem?_eq_getElem hj, e]
    exact hx

/-- `p ws` has every outcome of `s` if `ws` has enough states. -/
def Covers (s : Sem W α) (p : List W → Prog α) : Prop := ∀ w r w', s w r w' → ∃ l : List W, ∀ ws, l ⊆ ws → (p ws).Can r

namespace Covers

theorem pure (a : α) : Covers (Pure.pure a : Sem W α) fun _ => Pure.pure a := fun _ _ _ h =>
  ⟨[], fun _ _ => .of_yields h.1⟩

theorem lift (x : Res α) : Covers (Sem.lift x : Sem W α) fun _ => Prog.lift x := fun _ _ _ h => ⟨[], fun _ _ => .of_yields h.1⟩

theorem call (others : W → W → Prop) (p : SProg W α) : Covers (Sem.call others p) fun ws => p.over ws := fun _ _ _ h => by
  obtain ⟨l, hl⟩ := SProg.ends_over h
  exact ⟨l, fun ws hs => .of_yields (hl ws hs)⟩

theorem par (others : W → W → Prop) (tasks : List (SProg W α)) :
    Covers (Sem.par others tasks) fun ws => inOrder (tasks.map fun p => p.over ws) := fun w r w' h => by
  obtain ⟨l, hl⟩ := Par.over h
  exact ⟨l, fun ws hs => (hl ws hs).inOrder⟩

theorem bind {s : Sem W α} {p : List W → Prog α} (h : Covers s p) {f : α → Sem W β} {g : List W → α → Prog β}
    (hf : ∀ a, Covers (f a) fun ws => g ws a) : Covers (s >>= f) fun ws => p ws >>= g ws := by
  rintro w r w' (⟨a, w1, h1, h2⟩ | ⟨h1, rfl⟩ | ⟨h1, rfl⟩)
  · obtain ⟨l1, hl1⟩ := h _ _ _ h1
    obtain ⟨l2, hl2⟩ := hf a _ _ _ h2
    exact ⟨l1 ++ l2, fun ws hs => Prog.Can.bind (hl1 ws fun x hx => hs (List.mem_append_left _ hx))
      (hl2 ws fun x hx => hs (List.mem_append_right _ hx))⟩
  · obtain ⟨l1, hl1⟩ := h _ _ _ h1
    exact ⟨l1, fun ws hs => Prog.Fails.bind (hl1 ws hs) _⟩
  · obtain ⟨l1, hl1⟩ := h _ _ _ h1
    exact ⟨l1, fun ws hs => Prog.Fails.bind (hl1 ws hs) _⟩

end Covers

/-! ### Refinement -/

section
variable {Inv : W → Prop}

theorem Refines.pure (a : α) : Refines Inv (Pure.pure a : SProg W α) (Pure.pure a : Prog α) := .done _

theorem Refines.ofProg (p : Prog α) : Refines Inv (SProg.ofProg p : SProg W α) p := by
  induction p with
  | done r => exact .done r
  | pick n k ih => exact .pick n _ _ fun i _ => ih i

theorem Refines.bind {s : SProg W α} {p : Prog α} (h : Refines Inv s p) {f : α → SProg W β} {g : α → Prog β}
    (hf : ∀ a, Refines Inv (f a) (g a)) : Refines Inv (s >>= f) (p >>= g) := by
  induction h with
  | done r =>
    cases r with
    | ok a => exact hf a
    | panic => exact .done _
    | diverge => exact .done _
  | pick n k k' h ih => exact .pick n _ _ fun i hi => ih i hi
  | touch new k p keep h ih => exact .touch new _ _ keep fun w hw => ih w hw

theorem Refines.ite {s s' : SProg W α} {p p' : Prog α} (c : Prop) [Decidable c] (h : Refines Inv s p) (h' : Refines Inv s' p') :
    Refines Inv (if c then s else s') (if c then p else p') := by split <;> assumption

theorem Refines.ends {others : W → W → Prop} (ho : ∀ w w', Inv w → others w w' → Inv w') {s : SProg W α} {p : Prog α}
    (h : Refines Inv s p) {w w' : W} {r : Res α} (hw : Inv w) (he : s.ends others w r w') : Inv w' ∧ p.yields r := by
  induction h generalizing w with
  | done r0 => obtain ⟨rfl, rfl⟩ := he; exact ⟨hw, rfl⟩
  | pick n k k' h ih =>
    obtain ⟨i, hi, he⟩ := he
    exact ⟨(ih i hi hw he).1, i, hi, (ih i hi hw he).2⟩
  | touch new k p keep h ih =>
    obtain ⟨w1, h1, he⟩ := he
    exact ih w1 (ho _ _ hw h1) (keep _ (ho _ _ hw h1)) he

theorem Refines.reaches {others : W → W → Prop} (hr : ∀ w, others w w) {s : SProg W α} {p : Prog α}
    (h : Refines Inv s p) {w : W} {r : Res α} (hw : Inv w) (hy : p.yields r) : ∃ w', Inv w' ∧ s.ends others w r w' := by
  induction h generalizing w with
  | done r0 => exact ⟨w, hw, hy, rfl⟩
  | pick n k k' h ih =>
    obtain ⟨i, hi, hy⟩ := hy
    obtain ⟨w', h1, h2⟩ := ih i hi hw hy
    exact ⟨w', h1, i, hi, h2⟩
  | touch new k p keep h ih =>
    obtain ⟨w', h1, h2⟩ := ih w hw (keep _ hw) hy
    exact ⟨w', h1, w, hr w, h2⟩

/-- One task after another. -/
theorem Par.one {others : W → W → Prop} {s : SProg W α} {w w1 w' : W} {a : α} (he : s.ends others w (.ok a) w1) (before after : List (SProg W α))
    (r : Res (List α)) (h : Par others (before ++ .done (.ok a) :: after) w1 r w') : Par others (before ++ s :: after) w r w' := by
  induction s generalizing w with
  | done r0 => obtain ⟨rfl, rfl⟩ := he; exact h
  | pick n k ih => obtain ⟨i, hi, he⟩ := he; exact .draw _ _ _ _ i hi _ _ _ (ih i he)
  | touch new k ih => obtain ⟨w2, h2, he⟩ := he; exact .access _ _ _ _ _ w2 _ _ h2 (ih w2 he)

/-- A single task is not disturbed by others. -/
theorem Par.single {others : W → W → Prop} {s : SProg W α} {w w' : W} {as : List α} (h : Par others [s] w (.ok as) w') :
    ∃ a, as = [a] ∧ s.ends others w (.ok a) w' := by
  generalize ht : [s] = tasks at h
  generalize hr : (Res.ok as : Res (List α)) = r at h
  induction h generalizing s with
  | finished bs w =>
    cases hr
    match as, ht with
    | [a], ht => cases ht; exact ⟨a, rfl, rfl, rfl⟩
  | failed tasks w x x' mem fails => subst hr; rcases fails with ⟨-, h⟩ | ⟨-, h⟩ <;> cases h
  | draw before n k after i hi w w' r next ih =>
    match before, ht with
    | [], ht =>
      cases ht
      obtain ⟨a, h1, h2⟩ := ih rfl hr
      exact ⟨a, h1, i, hi, h2⟩
    | b :: bs, ht => simp at ht
  | access before new k after w w1 w' r change next ih =>
    match before, ht with
    | [], ht =>
      cases ht
      obtain ⟨a, h1, h2⟩ := ih rfl hr
      exact ⟨a, h1, w1, change, h2⟩
    | b :: bs, ht => simp at ht

theorem Par.sequence {others : W → W → Prop} (hr : ∀ w, others w w) {tasks : List (SProg W α)} {ps : List (Prog α)}
    (h : List.Forall₂ (Refines Inv) tasks ps) {as : List α} (hy : List.Forall₂ (fun p a => p.yields (.ok a)) ps as) {w : W} (hw : Inv w)
    (bs : List α) : ∃ w', Inv w' ∧ Par others ((bs.map fun a => .done (.ok a)) ++ tasks) w (.ok (bs ++ as)) w' := by
  induction h generalizing as w bs with
  | nil =>
    cases hy
    exact ⟨w, hw, by simpa using Par.finished (others := others) bs w⟩
  | @cons s p tasks ps h1 h2 ih =>
    cases hy with
    | @cons _ a _ as hy1 hy2 =>
      obtain ⟨w1, k1, k2⟩ := h1.reaches hr hw hy1
      obtain ⟨w', k3, k4⟩ := ih hy2 k1 (bs ++ [a])
      refine ⟨w', k3, Par.one k2 _ _ _ ?_⟩
      simpa using k4

theorem Par.refines {others : W → W → Prop} (ho : ∀ w w', Inv w → others w w' → Inv w') {tasks : List (SProg W α)} {w w' : W}
    {r : Res (List α)} (h : Par others tasks w r w') {ps : List (Prog α)} (hp : List.Forall₂ (Refines Inv) tasks ps) (hw : Inv w) :
    Inv w' ∧ TasksCan ps r := by
  induction h generalizing ps with
  | finished as w =>
    refine ⟨hw, ?_⟩
    show List.Forall₂ _ ps as
    rw [List.forall₂_map_left_iff] at hp
    refine List.Forall₂.flip ?_
    refine hp.imp fun a p h => ?_
    cases h
    rfl
  | failed tasks w r r' mem fails =>
    refine ⟨hw, ?_⟩
    have : ∃ p ∈ ps, Refines Inv (.done r) p := by
      clear fails hw
      induction hp with
      | nil => cases mem
      | cons h1 _ ih =>
        rcases List.mem_cons.1 mem with e | mem
        · rw [← e] at h1; exact ⟨_, List.mem_cons_self, h1⟩
        · obtain ⟨p, hp, hr⟩ := ih mem; exact ⟨p, List.mem_cons_of_mem _ hp, hr⟩
    obtain ⟨p, hp1, hp2⟩ := this
    cases hp2
    rcases fails with ⟨rfl, rfl⟩ | ⟨rfl, rfl⟩
    · exact ⟨_, hp1, .inl rfl⟩
    · exact ⟨_, hp1, .inr rfl⟩
  | draw before n k after i hi w w' r next ih =>
    obtain ⟨l1, p, l2, rfl, h1, h2, h3⟩ := (forall₂_split _ _ _ _).1 hp
    cases h2 with
    | pick _ _ k' hk =>
      obtain ⟨g1, g2⟩ := ih ((forall₂_split _ _ _ _).2 ⟨l1, _, l2, rfl, h1, hk i hi, h3⟩) hw
      exact ⟨g1, g2.put (q := .pick n k') fun x hx => ⟨i, hi, hx⟩⟩
  | access before new k after w w1 w' r change next ih =>
    obtain ⟨l1, p, l2, rfl, h1, h2, h3⟩ := (forall₂_split _ _ _ _).1 hp
    cases h2 with
    | touch _ _ _ keep hk =>
      have hw1 := ho _ _ hw change
      exact ih ((forall₂_split _ _ _ _).2 ⟨l1, _, l2, rfl, h1, hk w1 hw1, h3⟩) (keep _ hw1)

end

/-- As long as the shared state satisfies `Inv`, `s` and `p` have the same normal results, and `p` can fail if `s` can. -/
def Agrees (Inv : W → Prop) (s : Sem W α) (p : List W → Prog α) : Prop :=
  (∀ w r w', Inv w → s w r w' → Inv w' ∧ ∀ ws, (p ws).Can r) ∧
    ∀ w a ws, Inv w → (p ws).yields (.ok a) → ∃ w', Inv w' ∧ s w (.ok a) w'

namespace Agrees
variable {Inv : W → Prop}

theorem pure (a : α) : Agrees Inv (Pure.pure a : Sem W α) fun _ => Pure.pure a :=
  ⟨fun _ _ _ hw h => ⟨by rw [h.2]; exact hw, fun _ => .of_yields h.1⟩, fun w _ _ hw h => ⟨w, hw, h, rfl⟩⟩

theorem lift (x : Res α) : Agrees Inv (Sem.lift x : Sem W α) fun _ => Prog.lift x :=
  ⟨fun _ _ _ hw h => ⟨by rw [h.2]; exact hw, fun _ => .of_yields h.1⟩, fun w _ _ hw h => ⟨w, hw, h, rfl⟩⟩

theorem call {others : W → W → Prop} (ho : ∀ w w', Inv w → others w w' → Inv w') (hr : ∀ w, others w w) {s : SProg W α} {p : Prog α}
    (h : Refines Inv s p) : Agrees Inv (Sem.call others s) fun _ => p :=
  ⟨fun _ _ _ hw he => ⟨(h.ends ho hw he).1, fun _ => .of_yields (h.ends ho hw he).2⟩, fun _ _ _ hw hy => h.reaches hr hw hy⟩

theorem par {others : W → W → Prop} (ho : ∀ w w', Inv w → others w w' → Inv w') (hr : ∀ w, others w w) {tasks : List (SProg W α)}
    {ps : List (Prog α)} (h : List.Forall₂ (Refines Inv) tasks ps) : Agrees Inv (Sem.par others tasks) fun _ => inOrder ps := by
  constructor
  · intro w r w' hw hp
    obtain ⟨h1, h2⟩ := Par.refines ho hp h hw
    exact ⟨h1, fun _ => h2.inOrder⟩
  · intro w as _ hw hy
    have := Par.sequence hr h ((yields_inOrder _ _).1 hy) hw []
    simp only [List.map_nil, List.nil_append] at this
    exact this

theorem bind {s : Sem W α} {p : List W → Prog α} (h : Agrees Inv s p) {f : α → Sem W β} {g : List W → α → Prog β}
    (hf : ∀ a, Agrees Inv (f a) fun ws => g ws a) : Agrees Inv (s >>= f) fun ws => p ws >>= g ws := by
  constructor
  · rintro w r w' hw (⟨a, w1, h1, h2⟩ | ⟨h1, rfl⟩ | ⟨h1, rfl⟩)
    · obtain ⟨hw1, k1⟩ := h.1 _ _ _ hw h1
      obtain ⟨hw', k2⟩ := (hf a).1 _ _ _ hw1 h2
      exact ⟨hw', fun ws => Prog.Can.bind (k1 ws) (k2 ws)⟩
    · obtain ⟨hw1, k1⟩ := h.1 _ _ _ hw h1
      exact ⟨hw1, fun ws => Prog.Fails.bind (k1 ws) _⟩
    · obtain ⟨hw1, k1⟩ := h.1 _ _ _ hw h1
      exact ⟨hw1, fun ws => Prog.Fails.bind (k1 ws) _⟩
  · intro w b ws hw hy
    obtain ⟨a, h1, h2⟩ := (yields_bind_ok _ _ _).1 hy
    obtain ⟨w1, hw1, k1⟩ := h.2 _ _ _ hw h1
    obtain ⟨w', hw', k2⟩ := (hf a).2 _ _ _ hw1 h2
    exact ⟨w', hw', .inl ⟨a, w1, k1, k2⟩⟩

end Agrees

/-! ### Whole runs -/

/-- A relation between what happens with shared state and programs without, closed under the steps of library code. -/
structure Closed {m : Type → Type} [Monad m] (D : Domain W m) (Rel : ∀ {α : Type}, m α → (List W → Prog α) → Prop) : Prop where
  pure : ∀ {α : Type} (a : α), Rel (Pure.pure a) fun _ => Pure.pure a
  lift : ∀ {α : Type} (x : Res α), Rel (D.lift x) fun _ => Prog.lift x
  bind : ∀ {α β : Type} {s : m α} {p : List W → Prog α}, Rel s p → ∀ {f : α → m β} {g : List W → α → Prog β},
    (∀ a, Rel (f a) fun ws => g ws a) → Rel (s >>= f) fun ws => p ws >>= g ws

theorem Covers.closed (others : W → W → Prop) : Closed (outcomes others) Covers := ⟨Covers.pure, Covers.lift, Covers.bind⟩
theorem Agrees.closed (others : W → W → Prop) (Inv : W → Prop) : Closed (outcomes others) (Agrees Inv) := ⟨Agrees.pure, Agrees.lift, Agrees.bind⟩

variable {I : Type} [Individual I] {Mo U A P Q : Type} {m : Type → Type} [Monad m] {D : Domain W m}
  {Rel : ∀ {α : Type}, m α → (List W → Prog α) → Prop}

/-- The relation holds for what a run uses of a model. -/
structure ModelRel (Rel : ∀ {α : Type}, m α → (List W → Prog α) → Prop) (D : Domain W m) (M : SharedModel I Mo U W)
    (N : List W → EvoModel I Mo U) : Prop where
  evaluates : ∀ (m : Mo) (l : List I), Rel (D.par (l.map (M.evaluate m))) fun ws => inOrder (l.map ((N ws).evaluate m))
  mutates : ∀ m n x, Rel (D.par (List.replicate n (M.mutate m x))) fun ws => inOrder (List.replicate n ((N ws).mutate m x))
  breeds : ∀ env m p r n, Rel (D.par (List.replicate n (M.breed env m p r))) fun ws =>
    inOrder (List.replicate n ((N ws).breed env m p r))
  breed : ∀ env m p r, Rel (D.call (M.breed env m p r)) fun ws => (N ws).breed env m p r
  preGeneration : ∀ m p r, Rel (D.call (M.preGeneration m p r)) fun ws => (N ws).preGeneration m p r
  prepared : ∀ ws env p s, M.selectors.prepared env p s = s.prepare env (N ws).selectors p
  extendWith : ∀ ws, (N ws).extendWith = defaultExtendWith (N ws).toEvoOps

/-- The relation holds for what a run uses of an algorithm. -/
structure AlgoRel (Rel : ∀ {α : Type}, m α → (List W → Prog α) → Prop) (S : SharedAlgo I Mo A P m)
    (alg : List W → EvoAlgo I Mo U A P) : Prop where
  initialSize : ∀ ws, (alg ws).initialSize = S.initialSize
  model : ∀ ws, (alg ws).model = S.model
  configure : ∀ ws, (alg ws).configure = S.configure
  selectElites : ∀ ws, (alg ws).selectElites = S.selectElites
  replace : ∀ ws, (alg ws).replace = S.replace
  initPopulation : ∀ env a l, Rel (S.initPopulation env a l) fun ws => (alg ws).initPopulation env a l
  prepare : ∀ env a p, Rel (S.prepare env a p) fun ws => (alg ws).prepare env a p
  generate : ∀ env a p l, Rel (S.generate env a p l) fun ws => (alg ws).generate env a p l

theorem mapList_eq_inOrder {α β : Type} (f : β → Prog α) (l : List β) : Prog.mapList f l = inOrder (l.map f) := by
  induction l with
  | nil => rfl
  | cons b l ih => rw [List.map_cons, inOrder, ← ih]; rfl

section
variable (hR : Closed D Rel) {M : SharedModel I Mo U W} {N : List W → EvoModel I Mo U}
include hR

theorem rel_initialize (hM : ModelRel Rel D M N) (env : Env I) (m : Mo) (l : List I) :
    Rel (sharedInitialize D M env m l) fun ws => defaultInitialize (N ws) env m l := by
  unfold sharedInitialize defaultInitialize
  simp only [mapList_eq_inOrder]
  exact hR.bind (hM.evaluates m l) fun ev => hR.lift _

theorem rel_generate (hM : ModelRel Rel D M N) (env : NumEnv) (m : Mo) (repro : ReproParams U × Nat) (p : Population I) (l : List I) :
    Rel (sharedGenerate D M env m repro p l) fun ws => defaultGenerate (N ws) env m repro p l := by
  obtain ⟨b, size⟩ := repro
  unfold sharedGenerate defaultGenerate
  simp only
  rcases size - l.length with _ | _ | n
  · exact hR.pure _
  · exact hR.bind (hM.breed env m p b) fun _ => hR.pure _
  · simp only [← inOrder_replicate]
    exact hR.bind (hM.breeds env m p b _) fun _ => hR.pure _

omit [Individual I] in
theorem rel_extend {newRandom : SProg W I} {new : List W → Prog I}
    (hn : ∀ n, Rel (D.par (List.replicate n newRandom)) fun ws => inOrder (List.replicate n (new ws))) (l : List I) (n : Nat) :
    Rel (sharedExtend D newRandom l n) fun ws => defaultExtend (new ws) l n := by
  unfold sharedExtend defaultExtend
  split
  · exact hR.pure _
  · simp only [← inOrder_replicate]
    exact hR.bind (hn n) fun _ => hR.pure _

theorem rel_extendWith (hM : ModelRel Rel D M N) (m : Mo) (l : List I) (n : Nat) (x : I) :
    Rel (sharedExtendWith D M m l n x) fun ws => defaultExtendWith (N ws).toEvoOps m l n x := by
  unfold sharedExtendWith defaultExtendWith
  split
  · exact hR.pure _
  · simp only
    split
    · exact hR.pure _
    · simp only [← inOrder_replicate]
      exact hR.bind (hR.lift _) fun k => hR.bind (hM.mutates m k x) fun _ => hR.pure _

theorem rel_ga (hM : ModelRel Rel D M N) : AlgoRel Rel (sharedGa D M) fun ws => ga (N ws) where
  initialSize _ := rfl
  model _ := rfl
  configure _ := rfl
  selectElites _ := rfl
  replace _ := rfl
  initPopulation env a l := rel_initialize hR hM env a.model l
  generate env a p l := rel_generate hR hM env a.model (a.breeding, a.populationSize) p l
  prepare env a p := by
    show Rel (Ga.sharedPrepare D M env a p) fun ws => Ga.prepare (N ws) env a p
    unfold Ga.sharedPrepare Ga.prepare
    refine hR.bind (hM.preGeneration _ _ _) fun mb => ?_
    have : ∀ ws, mb.2.parentSelector.prepare env (N ws).selectors p = M.selectors.prepared env p mb.2.parentSelector := fun ws =>
      (hM.prepared ws env p _).symm
    simp only [this]
    exact hR.pure _

theorem rel_aga (hM : ModelRel Rel D M N) : AlgoRel Rel (sharedAga D M) fun ws => aga (N ws) where
  initialSize _ := rfl
  model _ := rfl
  configure _ := rfl
  selectElites _ := rfl
  replace _ := rfl
  initPopulation env a l := rel_initialize hR hM env a.model l
  generate env a p l := rel_generate hR hM env a.model (a.breeding, a.populationSize) p l
  prepare env a p := by
    show Rel (Aga.sharedPrepare D M env a p) fun ws => Aga.prepare (N ws) env a p
    unfold Aga.sharedPrepare Aga.prepare
    refine hR.bind (hM.preGeneration _ _ _) fun mb => ?_
    have : ∀ ws, mb.2.parentSelector.prepare env (N ws).selectors p = M.selectors.prepared env p mb.2.parentSelector := fun ws =>
      (hM.prepared ws env p _).symm
    simp only [this]
    exact hR.pure _

variable {S : SharedAlgo I Mo A P m} {alg : List W → EvoAlgo I Mo U A P} {progress : Q → Population I → SProg W (Bool × Q)}
  {prog : List W → Q → Population I → Prog (Bool × Q)}

theorem rel_step (hA : AlgoRel Rel S alg) (env : Env I) (st : RunState I A Q) :
    Rel (sharedStep D S env st) fun ws => generationStep (alg ws) env st := by
  unfold sharedStep generationStep
  refine hR.bind (hA.prepare _ _ _) fun a => ?_
  simp only [hA.selectElites, hA.replace]
  exact hR.bind (hR.lift _) fun l => hR.bind (hA.generate _ _ _ _) fun l' => hR.bind (hR.lift _) fun r => hR.pure _

theorem rel_loop (hA : AlgoRel Rel S alg) (hp : ∀ q pop, Rel (D.call (progress q pop)) fun ws => prog ws q pop)
    (envs : Nat → Env I) (fuel t : Nat) (st : RunState I A Q) :
    Rel (sharedLoop D S envs progress fuel t st) fun ws => evolveLoop (alg ws) envs (prog ws) fuel t st := by
  induction fuel generalizing t st with
  | zero => exact hR.pure _
  | succ fuel ih =>
    unfold sharedLoop evolveLoop
    refine hR.bind (hp _ _) fun cq => ?_
    obtain ⟨c, q⟩ := cq
    cases c with
    | false => exact hR.pure _
    | true => exact hR.bind (rel_step hR hA _ _) fun st => ih _ _

theorem rel_population (hA : AlgoRel Rel S alg) (hp : ∀ q pop, Rel (D.call (progress q pop)) fun ws => prog ws q pop)
    (envs : Nat → Env I) (fuel : Nat) (a : A) (init : List I) (p : P) (q : Q) :
    Rel (sharedPopulation D S envs progress fuel a init p q) fun ws =>
      evolvePopulation (alg ws) envs (prog ws) fuel a init p q := by
  unfold sharedPopulation evolvePopulation
  simp only [hA.configure]
  exact hR.bind (hR.lift _) fun a' => hR.bind (hA.initPopulation _ _ _) fun pop => rel_loop hR hA hp _ _ _ _

omit [Individual I] in
theorem rel_result (r : Bool × RunState I A Q) : Rel (sharedResult D r) fun _ => takeResult r := by
  unfold sharedResult takeResult
  split
  · exact hR.bind (hR.lift _) fun x => hR.pure _
  · exact hR.pure _

theorem rel_random (hA : AlgoRel Rel S alg) (hp : ∀ q pop, Rel (D.call (progress q pop)) fun ws => prog ws q pop)
    (hx : ∀ ws, (N ws).extend = fun _ => defaultExtend) {newRandom : SProg W I} {new : List W → Prog I}
    (hn : ∀ n, Rel (D.par (List.replicate n newRandom)) fun ws => inOrder (List.replicate n (new ws)))
    (envs : Nat → Env I) (fuel : Nat) (a : A) (p : P) (q : Q) :
    Rel (sharedRandom D S envs progress fuel a newRandom p q) fun ws =>
      runRandom (N ws) (alg ws) envs (prog ws) fuel a (new ws) p q := by
  unfold sharedRandom runRandom
  simp only [hx, hA.initialSize]
  exact hR.bind (rel_extend hR hn _ _) fun l => hR.bind (rel_population hR hA hp _ _ _ _ _ _) fun r => rel_result hR r

theorem rel_individual (hM : ModelRel Rel D M N) (hA : AlgoRel Rel S alg)
    (hp : ∀ q pop, Rel (D.call (progress q pop)) fun ws => prog ws q pop) (x : I)
    (envs : Nat → Env I) (fuel : Nat) (a : A) (p : P) (q : Q) :
    Rel (sharedIndividual D M S envs progress fuel a x p q) fun ws =>
      evolveIndividual (N ws) (alg ws) envs (prog ws) fuel a x p q := by
  unfold sharedIndividual evolveIndividual
  simp only [hM.extendWith, hA.initialSize, hA.model]
  exact hR.bind (rel_extendWith hR hM _ _ _ _) fun l => hR.bind (rel_population hR hA hp _ _ _ _ _ _) fun r => rel_result hR r

end

theorem covers_model (others : W → W → Prop) (M : SharedModel I Mo U W) : ModelRel Covers (outcomes others) M M.over where
  evaluates m l := by
    have := Covers.par others (l.map (M.evaluate m))
    simp only [List.map_map] at this
    exact this
  mutates m n x := by
    have := Covers.par others (List.replicate n (M.mutate m x))
    simp only [List.map_replicate] at this
    exact this
  breeds env m p r n := by
    have := Covers.par others (List.replicate n (M.breed env m p r))
    simp only [List.map_replicate] at this
    exact this
  breed env m p r := Covers.call others _
  preGeneration m p r := Covers.call others _
  prepared ws env p s := by cases s <;> rfl
  extendWith _ := rfl

theorem forall₂_replicate {R : α → β → Prop} {a : α} {b : β} (h : R a b) (n : Nat) :
    List.Forall₂ R (List.replicate n a) (List.replicate n b) := by
  induction n with
  | zero => exact .nil
  | succ n ih => exact .cons h ih

theorem agrees_model {Inv : W → Prop} {others : W → W → Prop} (ho : ∀ w w', Inv w → others w w' → Inv w') (hr : ∀ w, others w w)
    {M : SharedModel I Mo U W} {N : EvoModel I Mo U} (h : ModelRefines Inv M N) (hx : N.extendWith = defaultExtendWith N.toEvoOps) :
    ModelRel (Agrees Inv) (outcomes others) M fun _ => N where
  evaluates m l := by
    refine Agrees.par ho hr ?_
    rw [List.forall₂_map_left_iff, List.forall₂_map_right_iff]
    exact List.forall₂_same.2 fun a _ => h.evaluate m a
  mutates m n x := Agrees.par ho hr (forall₂_replicate (h.mutate m x) n)
  breeds env m p r n := Agrees.par ho hr (forall₂_replicate (h.breed env m p r) n)
  breed env m p r := Agrees.call ho hr (h.breed env m p r)
  preGeneration m p r := Agrees.call ho hr (h.preGeneration m p r)
  prepared ws env p s := by
    cases s with
    | builtin s => rfl
    | custom u => exact congrArg (fun f => DynSel.custom (f u p)) h.prepare
  extendWith _ := hx

/-! ### Breeding -/

theorem over_breed (M : SharedModel I Mo U W) (ws : List W) (env : NumEnv) (m : Mo) (p : Population I) (r : ReproParams U) :
    (sharedBreed M.toSharedOps env m p r).over ws = defaultBreed (M.over ws).toEvoOps env m p r := by
  have e1 : ∀ s, (M.selectors.dispatch env p s).over ws = s.select env (M.over ws).selectors p := fun s => by
    cases s with
    | builtin s => exact SProg.over_ofProg _ _
    | custom u => rfl
  have e2 : ∀ s n x, (M.selectors.dispatchDistinct env p n x s).over ws = s.selectDistinct env (M.over ws).selectors p n x := fun s n x => by
    cases s with
    | builtin s => exact SProg.over_ofProg _ _
    | custom u => rfl
  have e3 : ∀ {α β : Type} (a : α) (f : α → SProg W β), (pure a : SProg W α) >>= f = f a := fun _ _ => rfl
  unfold sharedBreed defaultBreed
  simp only [SProg.over_bind, SProg.over_ite, SProg.over_ofProg, e1, e2, e3, Prog.bind_pure_left]
  congr 1; funext x
  split
  · congr 1; funext u
    split
    · congr 1; funext p2
      cases Option.map Prod.snd p2 with
      | none => simp only [SProg.over_bind, SProg.over_ite, SProg.over_ofProg]; rfl
      | some y => simp only [SProg.over_bind, SProg.over_ite, SProg.over_ofProg]; rfl
    · rfl
  · rfl

/-- The default `breed` refines the one without shared state. -/
theorem refines_breed {Inv : W → Prop} {M : SharedOps I Mo U W} {N : EvoOps I Mo U}
    (hc : ∀ m a b, Refines Inv (M.crossover m a b) (N.crossover m a b)) (hm : ∀ m a, Refines Inv (M.mutate m a) (N.mutate m a))
    (hi : ∀ m a, Refines Inv (M.improve m a) (N.improve m a)) (he : ∀ m a, Refines Inv (M.evaluate m a) (N.evaluate m a))
    (hs : ∀ m o f p, Refines Inv (M.canSurvive m o f p) (N.canSurvive m o f p))
    (hsel : ∀ u p, Refines Inv (M.selectors.select u p) (N.selectors.select u p))
    (hdis : ∀ u p n x, Refines Inv (M.selectors.selectDistinct u p n x) (N.selectors.selectDistinct u p n x))
    (env : NumEnv) (m : Mo) (p : Population I) (r : ReproParams U) :
    Refines Inv (sharedBreed M env m p r) (defaultBreed N env m p r) := by
  have e1 : ∀ s : DynSel U, Refines Inv (M.selectors.dispatch env p s) (s.select env N.selectors p) := fun s => by
    cases s with
    | builtin s => exact .ofProg _
    | custom u => exact hsel u p
  have e2 : ∀ (s : DynSel U) n x, Refines Inv (M.selectors.dispatchDistinct env p n x s) (s.selectDistinct env N.selectors p n x) :=
    fun s n x => by
    cases s with
    | builtin s => exact .ofProg _
    | custom u => exact hdis u p n x
  have tail : ∀ (f o : I), Refines Inv (do
      let u ← .ofProg genF64
      let offspring ← if u.lt r.mutationRate then M.mutate m o else pure o
      let offspring ← M.improve m offspring
      let offspring ← M.evaluate m offspring
      let survives ← if isValid offspring then M.canSurvive m offspring f p else pure false
      pure (if survives then offspring else f))
      (do
      let u ← genF64
      let offspring ← if u.lt r.mutationRate then N.mutate m o else pure o
      let offspring ← N.improve m offspring
      let offspring ← N.evaluate m offspring
      let survives ← if isValid offspring then N.canSurvive m offspring f p else pure false
      pure (if survives then offspring else f)) := by
    intro f o
    have last : ∀ o' : I, Refines Inv (do
        let offspring ← M.improve m o'
        let offspring ← M.evaluate m offspring
        let survives ← if isValid offspring then M.canSurvive m offspring f p else pure false
        pure (if survives then offspring else f))
        (do
        let offspring ← N.improve m o'
        let offspring ← N.evaluate m offspring
        let survives ← if isValid offspring then N.canSurvive m offspring f p else pure false
        pure (if survives then offspring else f)) := fun o' => by
      refine (hi m o').bind fun o1 => (he m o1).bind fun o2 => ?_
      dsimp only
      split
      · exact (hs m o2 f p).bind fun b => .pure _
      · exact .pure _
    refine (Refines.ofProg _).bind fun u => ?_
    dsimp only
    split
    · exact (hm m o).bind fun o' => last o'
    · exact last o
  unfold sharedBreed defaultBreed
  refine (e1 _).bind fun x => ?_
  dsimp only
  split
  · refine (Refines.ofProg _).bind fun u => ?_
    show Refines Inv (ite _ _ _) (ite _ _ _)
    split
    · refine (e2 _ _ _).bind fun p2 => ?_
      rcases p2 with _ | ⟨i, y⟩
      · exact tail _ _
      · exact (hc m _ _).bind fun o => tail _ _
    · exact tail _ _
  · exact tail _ _

section
variable {ws : List W} (hws : ws ≠ [])
include hws

theorem may_of_over {p : SProg W α} {a : α} (h : (p.over ws).yields (.ok a)) : p.May a := by
  obtain ⟨w', h'⟩ := SProg.over_ends hws h (ws.head hws)
  exact ⟨_, w', h'⟩

theorem always_over {P : α → Prop} {p : SProg W α} (h : p.Anyhow P) : Always P (p.over ws) := fun r hr => by
  obtain ⟨w', h'⟩ := SProg.over_ends hws hr (ws.head hws)
  exact h _ _ _ h'

end

/-! ### There is always an outcome -/

/-- From every state something can happen. -/
def Sem.Total (s : Sem W α) : Prop := ∀ w, ∃ r w', s w r w'

theorem SProg.exists_ends {others : W → W → Prop} (hr : ∀ w, others w w) (p : SProg W α) (w : W) : ∃ r w', p.ends others w r w' := by
  induction p generalizing w with
  | done r => exact ⟨r, w, rfl, rfl⟩
  | pick n k ih => obtain ⟨r, w', h⟩ := ih 0 w; exact ⟨r, w', 0, Nat.zero_le _, h⟩
  | touch new k ih => obtain ⟨r, w', h⟩ := ih w (new w); exact ⟨r, w', w, hr w, h⟩

/-- A task that fails while others wait. -/
theorem Par.fail {others : W → W → Prop} {s : SProg W α} {w w' : W} {r : Res α} {r' : Res (List α)} (he : s.ends others w r w')
    (hr : (r = .panic ∧ r' = .panic) ∨ (r = .diverge ∧ r' = .diverge)) (before after : List (SProg W α)) :
    Par others (before ++ s :: after) w r' w' := by
  induction s generalizing w with
  | done r0 =>
    obtain ⟨rfl, rfl⟩ := he
    exact .failed _ _ r _ (List.mem_append_right _ List.mem_cons_self) hr
  | pick n k ih => obtain ⟨i, hi, he⟩ := he; exact .draw _ _ _ _ i hi _ _ _ (ih i he)
  | touch new k ih => obtain ⟨w2, h2, he⟩ := he; exact .access _ _ _ _ _ w2 _ _ h2 (ih w2 he)

theorem Par.exists_outcome {others : W → W → Prop} (hr : ∀ w, others w w) (bs : List α) (tasks : List (SProg W α)) (w : W) :
    ∃ r w', Par others ((bs.map fun a => .done (.ok a)) ++ tasks) w r w' := by
  induction tasks generalizing bs w with
  | nil => exact ⟨.ok bs, w, by simpa using Par.finished (others := others) bs w⟩
  | cons t ts ih =>
    obtain ⟨r, w1, h⟩ := t.exists_ends hr w
    cases r with
    | ok a =>
      obtain ⟨r', w', h'⟩ := ih (bs ++ [a]) w1
      exact ⟨r', w', Par.one h _ _ _ (by simpa using h')⟩
    | panic => exact ⟨.panic, w1, Par.fail h (.inl ⟨rfl, rfl⟩) _ _⟩
    | diverge => exact ⟨.diverge, w1, Par.fail h (.inr ⟨rfl, rfl⟩) _ _⟩

theorem Sem.Total.closed (others : W → W → Prop) : Closed (outcomes others) fun s _ => s.Total where
  pure a w := ⟨.ok a, w, rfl, rfl⟩
  lift x w := ⟨x, w, rfl, rfl⟩
  bind hs f g hf w := by
    obtain ⟨r, w1, h⟩ := hs w
    cases r with
    | ok a =>
      obtain ⟨r', w', h'⟩ := hf a w1
      exact ⟨r', w', .inl ⟨a, w1, h, h'⟩⟩
    | panic => exact ⟨.panic, w1, .inr (.inl ⟨h, rfl⟩)⟩
    | diverge => exact ⟨.diverge, w1, .inr (.inr ⟨h, rfl⟩)⟩

theorem total_model {others : W → W → Prop} (hr : ∀ w, others w w) (M : SharedModel I Mo U W) :
    ModelRel (fun s _ => s.Total) (outcomes others) M M.over := by
  have par : ∀ {α : Type} (tasks : List (SProg W α)), (Sem.par others tasks).Total := fun tasks w => by
    exact Par.exists_outcome hr [] tasks w
  have call : ∀ {α : Type} (p : SProg W α), (Sem.call others p).Total := fun p w => p.exists_ends hr w
  exact ⟨fun _ _ => par _, fun _ _ _ => par _, fun _ _ _ _ _ => par _, fun _ _ _ _ => call _, fun _ _ _ => call _,
    fun ws env p s => by cases s <;> rfl, fun _ => rfl⟩

end RG
