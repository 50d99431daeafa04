import Verif.Proofs.Schema
import Verif.Props.Pressure

/-! # Helper lemmas about the expected gain of a generation -/

set_option linter.unusedSectionVars false

namespace RG
open Prog
variable {I : Type} [Individual I] {Mo U : Type}

namespace Prog

theorem average_mono {α : Type} (p : Prog α) {f g : α → ℚ} (h : ∀ a, p.yields (.ok a) → f a ≤ g a) : p.average f ≤ p.average g := by
  unfold average
  refine expect_mono _ _ _ fun r hr => ?_
  cases r with
  | ok a => exact h a hr
  | panic => exact le_rfl
  | diverge => exact le_rfl

theorem le_average {α : Type} {p : Prog α} {f : α → ℚ} {c : ℚ} (h : Always (fun a => c ≤ f a) p) : c ≤ p.average f := by
  rw [← average_const (h.mono fun _ _ => trivial) c]
  refine average_mono _ fun a ha => ?_
  obtain ⟨b, e, hb⟩ := h _ ha
  cases e
  exact hb

theorem average_congr {α : Type} (p : Prog α) {f g : α → ℚ} (h : ∀ a, p.yields (.ok a) → f a = g a) : p.average f = p.average g :=
  le_antisymm (average_mono p fun a ha => (h a ha).le) (average_mono p fun a ha => (h a ha).ge)

/-- The sum over `n` independent results. -/
theorem average_replicate_sum {α : Type} {p : Prog α} (h : Always (fun _ => True) p) (f : α → ℚ) (n : Nat) :
    (Prog.replicate n p).average (fun l => (l.map f).sum) = n * p.average f := by
  induction n with
  | zero => rw [show Prog.replicate 0 p = pure [] from rfl, average_pure]; simp
  | succ n ih =>
    have hn := (average_replicate h (fun _ => True) n).1
    show (p >>= fun a => Prog.replicate n p >>= fun as => pure (a :: as)).average _ = _
    rw [average_bind]
    have : ∀ a, (Prog.replicate n p >>= fun as => pure (a :: as)).average (fun l => (l.map f).sum) = f a + n * p.average f := by
      intro a
      rw [average_bind]
      simp only [average_pure, List.map_cons, List.sum_cons]
      rw [average_add, ih, average_const hn]
    simp only [this]
    rw [average_add, average_const h]
    push_cast; ring

end Prog

/-- What `breed` does after the choice of the parents. -/
def breedRest (M : EvoOps I Mo U) (model : Mo) (p : Population I) (r : ReproParams U) (ps : I × Option I) : Prog I :=
  breedStart M model ps.1 ps.2 >>= fun o => breedMutate M model r.mutationRate o >>= fun o => breedEnd M model p (fitterParent ps.1 ps.2) o

theorem le_fitterParent {a : I} {b : Option I} (ha : (fitness a).isNaN = false) : (fitness a).le (fitness (fitterParent a b)) = true := by
  cases b with
  | none => exact F64.le_refl ha
  | some b =>
    show (fitness a).le (fitness (if (fitness a).lt (fitness b) then b else a)) = true
    by_cases h : (fitness a).lt (fitness b) = true
    · rw [if_pos h]; exact F64.le_of_lt h
    · rw [if_neg h]; exact F64.le_refl ha

theorem breedRest_le {M : EvoOps I Mo U}
    (hcs : M.canSurvive = fun _ offspring parent _ => pure ((fitness parent).le (fitness offspring))) (model : Mo) (p : Population I)
    (r : ReproParams U) (ps : I × Option I) (ha : (fitness ps.1).isNaN = false) {c : I} (h : (breedRest M model p r ps).yields (.ok c)) :
    (fitness ps.1).le (fitness c) = true := by
  have hle := le_fitterParent (b := ps.2) ha
  unfold breedRest breedEnd at h
  simp only [yields_bind_ok, yields_pure, Res.ok.injEq, hcs] at h
  obtain ⟨_, -, _, -, _, -, o, -, s, hs, rfl⟩ := h
  cases s
  · exact hle
  · split at hs
    · rw [yields_pure] at hs
      simp only [Res.ok.injEq] at hs
      simp only [if_true]
      exact F64.le_trans hle hs.symm
    · cases hs

/-- Averages of the first parent. -/
theorem average_first (M : EvoOps I Mo U) (env : NumEnv) (p : Population I) (r : ReproParams U)
    (hal : Always (fun _ => True) (breedParents M env p r)) (f : I → ℚ) :
    (breedParents M env p r).average (fun ps => f ps.1) = (r.parentSelector.select env M.selectors p).average fun x => f x.2 := by
  unfold breedParents at hal ⊢
  rw [always_bind] at hal
  rw [average_bind]
  refine average_congr _ fun x hx => ?_
  obtain ⟨y, e, hy⟩ := hal _ hx
  cases e
  refine le_antisymm ?_ ?_
  · have := average_const hy (f x.2)
    rw [← this]
    refine average_mono _ fun ps hps => ?_
    simp only [yields_bind_ok, yields_pure, Res.ok.injEq] at hps
    obtain ⟨_, -, _, -, rfl⟩ := hps
    exact le_rfl
  · refine le_average ?_
    rw [always_bind] at hy ⊢
    refine hy.mono fun c hc => ?_
    rw [always_bind] at hc ⊢
    exact hc.mono fun o _ => (always_pure _ _).2 le_rfl

theorem average_breed_ge {M : EvoOps I Mo U}
    (hcs : M.canSurvive = fun _ offspring parent _ => pure ((fitness parent).le (fitness offspring)))
    (env : NumEnv) (model : Mo) (p : Population I) (r : ReproParams U) (hal : Always (fun _ => True) (defaultBreed M env model p r))
    (hsel : Partially (fun x => (fitness x.2).isNaN = false) (r.parentSelector.select env M.selectors p))
    (S : I → Prop) (φ : F64 → ℚ) (hφ : ∀ a b, S a → S b → (fitness a).le (fitness b) = true → φ (fitness a) ≤ φ (fitness b))
    (hS : Partially (fun x => S x.2) (r.parentSelector.select env M.selectors p)) (hS' : Partially S (defaultBreed M env model p r)) :
    (r.parentSelector.select env M.selectors p).average (fun x => φ (fitness x.2)) ≤
      (defaultBreed M env model p r).average fun c => φ (fitness c) := by
  have he : defaultBreed M env model p r = breedParents M env p r >>= breedRest M model p r := defaultBreed_eq M env model p r
  rw [he] at hal hS' ⊢
  rw [always_bind] at hal
  rw [← average_first M env p r (hal.mono fun _ _ => trivial) (fun x => φ (fitness x)), average_bind]
  refine average_mono _ fun ps hps => le_average ?_
  obtain ⟨a, e, ha⟩ := hal _ hps
  cases e
  have hfirst : ∃ i, (r.parentSelector.select env M.selectors p).yields (.ok (i, ps.1)) := by
    unfold breedParents at hps
    simp only [yields_bind_ok, yields_pure, Res.ok.injEq] at hps
    obtain ⟨x, hx, _, -, _, -, rfl⟩ := hps
    exact ⟨x.1, hx⟩
  obtain ⟨i, hi⟩ := hfirst
  intro res hres
  obtain ⟨c, rfl, -⟩ := ha res hres
  refine ⟨c, rfl, hφ _ _ (hS _ hi) (hS' c ((yields_bind_ok _ _ _).2 ⟨ps, hps, hres⟩)) (breedRest_le hcs model p r ps (hsel _ hi) hres)⟩

/-- The tail of a sorted list of numbers has a mean at least that of the list. -/
theorem drop_sum_ge (l : List ℚ) (hs : l.Pairwise (· ≤ ·)) (m : ℚ) (hm : l.sum = l.length * m) (k : Nat) :
    0 ≤ ((l.drop k).map fun x => x - m).sum := by
  rcases Nat.lt_or_ge k l.length with hk | hk
  swap
  · rw [List.drop_eq_nil_of_le hk]; simp
  have hall : (l.map fun x => x - m).sum = 0 := by
    have : ∀ l : List ℚ, (l.map fun x => x - m).sum = l.sum - l.length * m := fun l => by
      induction l with
      | nil => simp
      | cons a l ih => simp only [List.map_cons, List.sum_cons, List.length_cons, ih]; push_cast; ring
    rw [this, hm]; ring
  have hsplit : ((l.take k).map fun x => x - m).sum + ((l.drop k).map fun x => x - m).sum = 0 := by
    rw [← List.sum_append, ← List.map_append, List.take_append_drop, hall]
  have hp := List.pairwise_iff_getElem.1 hs
  have hneg : ∀ l : List ℚ, (∀ y ∈ l, y ≤ 0) → l.sum ≤ 0 := fun l h => by
    induction l with
    | nil => simp
    | cons a l ih =>
      have h1 := h a List.mem_cons_self
      have h2 := ih fun y hy => h y (List.mem_cons_of_mem _ hy)
      rw [List.sum_cons]; linarith
  rcases le_or_gt m l[k] with h | h
  · refine List.sum_nonneg fun y hy => ?_
    obtain ⟨x, hx, rfl⟩ := List.mem_map.1 hy
    obtain ⟨i, hi, rfl⟩ := List.getElem_of_mem hx
    rw [List.getElem_drop]
    simp only [List.length_drop] at hi
    rcases Nat.eq_zero_or_pos i with rfl | h0
    · simpa using h
    · have := hp k (k + i) hk (by omega) (by omega)
      linarith
  · have : ((l.take k).map fun x => x - m).sum ≤ 0 := by
      refine hneg _ fun y hy => ?_
      obtain ⟨x, hx, rfl⟩ := List.mem_map.1 hy
      obtain ⟨i, hi, rfl⟩ := List.getElem_of_mem hx
      rw [List.getElem_take]
      simp only [List.length_take] at hi
      have := hp i k (by omega) hk (by omega)
      linarith
    linarith

end RG
