import Verif.SpecSelection
import Verif.Proofs.Random
import Verif.Proofs.Population
import Verif.Proofs.Interpolate

/-! Helper lemmas about the selectors. -/

set_option linter.unusedSectionVars false

namespace RG
namespace Prog
variable {α β : Type}

theorem prob_uniform_bind (n : Nat) (h : 0 < n) (f : Nat → Prog β) (P : β → Prop) [DecidablePred P] :
    (uniform n >>= f).prob P = (∑ i ∈ Finset.range n, (f i).prob P) / n := by
  unfold prob
  rw [expect_bind, expect_uniform n h]

theorem prob_uniform (n : Nat) (h : 0 < n) (P : Nat → Prop) [DecidablePred P] :
    (uniform n).prob P = ((Finset.range n).filter P).card / n := by
  unfold prob
  rw [expect_uniform n h, Finset.card_filter]
  push_cast
  rfl

/-- A continuation that is deterministic on every reachable value. -/
theorem prob_bind_pure (p : Prog α) (f : α → Prog β) (g : α → β) (h : ∀ a, p.yields (.ok a) → f a = pure (g a))
    (P : β → Prop) [DecidablePred P] : (p >>= f).prob P = p.prob (fun a => P (g a)) := by
  unfold prob
  rw [expect_bind]
  refine expect_congr _ _ _ fun r hr => ?_
  cases r with
  | ok a => simp only [h a hr, expect_pure]
  | panic => rfl
  | diverge => rfl

theorem prob_bind_mul (p : Prog α) (f : α → Prog β) (P : β → Prop) [DecidablePred P] (Q : α → Prop) [DecidablePred Q]
    (c : ℚ) (h1 : ∀ a, p.yields (.ok a) → Q a → (f a).prob P = c)
    (h2 : ∀ a, p.yields (.ok a) → ¬ Q a → (f a).prob P = 0) : (p >>= f).prob P = p.prob Q * c := by
  unfold prob at *
  rw [expect_bind, mul_comm, ← expect_mul_left]
  refine expect_congr _ _ _ fun r hr => ?_
  cases r with
  | ok a =>
    by_cases hQ : Q a
    · simpa [hQ] using h1 a hr hQ
    · simpa [hQ] using h2 a hr hQ
  | panic => simp
  | diverge => simp

theorem prob_replicate_all (p : Prog α) (Q : α → Prop) [DecidablePred Q] (n : Nat) :
    (replicate n p).prob (fun l => ∀ a ∈ l, Q a) = (p.prob Q) ^ n := by
  induction n with
  | zero => simp [replicate]
  | succ n ih =>
    unfold replicate
    rw [prob_bind_mul p _ _ Q ((p.prob Q) ^ n), pow_succ, mul_comm]
    · intro a _ hQ
      rw [prob_bind_pure _ _ (fun as => a :: as) (fun _ _ => rfl), ← ih]
      exact prob_congr _ _ _ fun l _ => by simp [hQ]
    · intro a _ hQ
      rw [prob_bind_pure _ _ (fun as => a :: as) (fun _ _ => rfl)]
      exact prob_eq_zero _ _ fun l _ => by simp [hQ]

theorem prob_sub (p : Prog α) (P Q R : α → Prop) [DecidablePred P] [DecidablePred Q] [DecidablePred R]
    (h : ∀ a, p.yields (.ok a) → (P a ↔ Q a ∧ ¬ R a)) (hR : ∀ a, p.yields (.ok a) → R a → Q a) :
    p.prob P = p.prob Q - p.prob R := by
  unfold prob
  rw [eq_sub_iff_add_eq, ← expect_add]
  refine expect_congr _ _ _ fun r hr => ?_
  cases r with
  | ok a =>
    by_cases hq : Q a <;> by_cases hr' : R a
    · simp [h a hr, hq, hr']
    · simp [h a hr, hq, hr']
    · exact absurd (hR a hr hr') hq
    · simp [h a hr, hq, hr']
  | panic => simp
  | diverge => simp

end Prog

open Arith

variable {I : Type} [Individual I]

/-! ### Members -/

theorem memberAt_ok {p : Population I} {i : Nat} (h : i < p.len) :
    memberAt p i = .ok (i, p.individuals[i]'h) := by
  unfold memberAt index
  rw [List.getElem?_eq_getElem h]
  rfl

theorem memberAt_eq_ok {p : Population I} {i : Nat} {r : Nat × I} (h : memberAt p i = .ok r) :
    r.1 = i ∧ p.individuals[i]? = some r.2 := by
  unfold memberAt index at h
  cases hx : p.individuals[i]? with
  | none => rw [hx] at h; cases h
  | some x => rw [hx] at h; cases h; exact ⟨rfl, rfl⟩

theorem IsMember.mem {p : Population I} {r : Nat × I} (h : IsMember p r) : r.2 ∈ p.individuals :=
  List.mem_of_getElem? h.2

theorem isMember_memberAt {p : Population I} {i : Nat} (h : i < p.len) :
    Prog.Always (IsMember p) (Prog.lift (memberAt p i)) := by
  rw [memberAt_ok h, Prog.lift_ok, Prog.always_pure]
  exact ⟨h, List.getElem?_eq_getElem h⟩

/-! ### Draws -/

theorem yields_genF64 (x : Res F64) : genF64.yields x ↔ ∃ k, k < 2 ^ 53 ∧ x = .ok (F64.unit k) := by
  unfold genF64
  rw [Prog.yields_bind]
  simp only [Prog.yields_uniform]
  constructor
  · rintro (⟨a, ha, h⟩ | ⟨h, _⟩ | ⟨h, _⟩)
    · rcases ha with ⟨h0, _⟩ | ⟨i, hi, hi'⟩
      · norm_num at h0
      · cases hi'; exact ⟨a, hi, h⟩
    · rcases h with ⟨h0, _⟩ | ⟨i, hi, hi'⟩
      · norm_num at h0
      · cases hi'
    · rcases h with ⟨h0, _⟩ | ⟨i, hi, hi'⟩
      · norm_num at h0
      · cases hi'
  · rintro ⟨k, hk, rfl⟩
    exact Or.inl ⟨k, Or.inr ⟨k, hk, rfl⟩, rfl⟩

theorem always_genF64 (P : F64 → Prop) : Prog.Always P genF64 ↔ ∀ k, k < 2 ^ 53 → P (F64.unit k) := by
  unfold Prog.Always
  simp only [yields_genF64]
  constructor
  · intro h k hk; obtain ⟨a, ha, hP⟩ := h _ ⟨k, hk, rfl⟩; cases ha; exact hP
  · rintro h r ⟨k, hk, rfl⟩; exact ⟨_, rfl, h k hk⟩

theorem prob_genF64 (P : F64 → Prop) [DecidablePred P] :
    genF64.prob P = ((Finset.range (2 ^ 53)).filter fun k => P (F64.unit k)).card / 2 ^ 53 := by
  unfold genF64
  rw [Prog.prob_bind_pure _ _ F64.unit (fun _ _ => rfl), Prog.prob_uniform _ (by norm_num)]
  norm_num

theorem F64.rep_unit {k : Nat} (h : k ≤ 2 ^ 53) : Rep ((k : ℚ) / 2 ^ 53) := by
  have h1 : ((k : ℚ) / 2 ^ 53) = ((k : Int) : ℚ) * pow2 (-53) := by
    rw [pow2_eq, zpow_neg]; norm_num [div_eq_mul_inv]
  refine ⟨?_, ?_⟩
  · rw [h1]
    exact fmt_of_le (by rw [abs_of_nonneg (by positivity)]; exact_mod_cast h) (by norm_num)
  · have h2 : |(k : ℚ) / 2 ^ 53| ≤ 1 := by
      rw [abs_of_nonneg (by positivity), div_le_one (by positivity)]
      exact_mod_cast h
    refine _root_.lt_of_le_of_lt h2 ?_
    rw [← pow2_zero]
    exact pow2_lt.2 (by norm_num)

theorem F64.unit_val {k : Nat} (h : k ≤ 2 ^ 53) :
    (F64.unit k).isFinite = true ∧ (F64.unit k).val = (k : ℚ) / 2 ^ 53 :=
  F64.round_rep (F64.rep_unit h)

/-! ### Tournament -/

theorem TournamentSelection.select_eq (s : TournamentSelection) (p : Population I) (h : 0 < p.len) :
    s.select p = Prog.replicate s.size (Prog.uniform p.len) >>= fun l =>
      Prog.lift (Res.ofOption l.max?) >>= fun i => Prog.lift (memberAt p i) := by
  unfold TournamentSelection.select
  simp [h]

theorem max_of_draws {n : Nat} {l : List Nat} (hl : l ≠ []) (hn : ∀ a ∈ l, a < n) :
    ∃ m, l.max? = some m ∧ m ∈ l ∧ (∀ a ∈ l, a ≤ m) ∧ m < n := by
  cases hm : l.max? with
  | none => rw [List.max?_eq_none_iff] at hm; exact absurd hm hl
  | some m =>
    have h := (List.max?_eq_some_iff (xs := l) (a := m)).1 hm
    exact ⟨m, rfl, h.1, h.2, hn m h.1⟩

theorem draws_spec {k n : Nat} {l : List Nat} (h : (Prog.replicate k (Prog.uniform n)).yields (.ok l)) :
    l.length = k ∧ ∀ a ∈ l, a < n := by
  obtain ⟨h1, h2⟩ := (Prog.yields_replicate _ _ _).1 h
  refine ⟨h1, fun a ha => ?_⟩
  rcases (Prog.yields_uniform _ _).1 (h2 a ha) with ⟨_, h⟩ | ⟨i, hi, h⟩
  · cases h
  · cases h; exact hi

theorem always_draws {n : Nat} (h : 0 < n) (k : Nat) :
    Prog.Always (fun l => l.length = k ∧ ∀ a ∈ l, a < n) (Prog.replicate k (Prog.uniform n)) :=
  Prog.always_replicate (fun a => a < n) _ ((Prog.always_uniform _ _).2 ⟨h, fun _ hi => hi⟩) k

/-! ### Wheels -/

theorem wheelScan_some {α : Type} [Arith α] (t : α) (c : α) (i : Nat) (ws : List α) (j : Nat) :
    wheelScan t c i ws = some j ↔ ∃ m, j = i + m ∧ m < ws.length ∧ (t ≤ₐ runningSum c ws m) = true ∧
      ∀ m', m' < m → (t ≤ₐ runningSum c ws m') = false := by
  induction ws generalizing c i with
  | nil => simp [wheelScan]
  | cons w ws ih =>
    have key : ∀ m, runningSum c (w :: ws) (m + 1) = runningSum (c +ₐ w) ws m := fun m => rfl
    have key0 : runningSum c (w :: ws) 0 = c +ₐ w := rfl
    unfold wheelScan
    simp only
    split
    · rename_i h
      constructor
      · intro hj; cases hj; exact ⟨0, rfl, by simp, h, by simp⟩
      · rintro ⟨m, rfl, _, hm, hm'⟩
        rcases m with _ | m
        · rfl
        · have := hm' 0 (by omega)
          rw [key0, h] at this; cases this
    · rename_i h
      rw [ih]
      constructor
      · rintro ⟨m, rfl, h1, h2, h3⟩
        refine ⟨m + 1, by omega, by simp; omega, h2, ?_⟩
        intro m' hm'
        rcases m' with _ | m'
        · rw [key0]; simpa using h
        · exact h3 m' (by omega)
      · rintro ⟨m, rfl, h1, h2, h3⟩
        rcases m with _ | m
        · rw [key0] at h2; exact absurd h2 h
        · exact ⟨m, by omega, by simpa using h1, h2, fun m' hm' => h3 (m' + 1) (by omega)⟩

theorem wheelScan_none {α : Type} [Arith α] (t : α) (c : α) (i : Nat) (ws : List α) :
    wheelScan t c i ws = none ↔ ∀ m, m < ws.length → (t ≤ₐ runningSum c ws m) = false := by
  induction ws generalizing c i with
  | nil => simp [wheelScan]
  | cons w ws ih =>
    have key : ∀ m, runningSum c (w :: ws) (m + 1) = runningSum (c +ₐ w) ws m := fun m => rfl
    have key0 : runningSum c (w :: ws) 0 = c +ₐ w := rfl
    unfold wheelScan
    simp only
    split
    · rename_i h
      simp only [reduceCtorEq, false_iff, not_forall]
      exact ⟨0, by simp, by rw [key0, h]; simp⟩
    · rename_i h
      rw [ih]
      constructor
      · intro H m hm
        rcases m with _ | m
        · rw [key0]; simpa using h
        · exact H m (by simpa using hm)
      · intro H m hm
        exact H (m + 1) (by simpa using hm)

theorem wheelIndex_spec {α : Type} [Arith α] (ws : List α) (total u : α) (h : ws ≠ []) :
    ∃ j, wheelIndex ws total u = .ok j ∧ WheelPick ws (u *ₐ total) j := by
  have hl : 0 < ws.length := List.length_pos_of_ne_nil h
  unfold wheelIndex
  simp only
  cases hs : wheelScan (u *ₐ total) (lit 0) 0 ws with
  | some j =>
    obtain ⟨m, rfl, h1, h2, h3⟩ := (wheelScan_some _ _ _ _ _).1 hs
    refine ⟨0 + m, rfl, by omega, ?_, Or.inl ?_⟩
    · intro m' hm'; exact h3 m' (by omega)
    · rw [Nat.zero_add]; exact h2
  | none =>
    have := (wheelScan_none _ _ _ _).1 hs
    refine ⟨ws.length - 1, ?_, by omega, fun m hm => this m (by omega), Or.inr (by omega)⟩
    simp only [usizeSub]
    rw [if_pos (by omega)]

theorem WheelPick.unique {α : Type} [Arith α] {ws : List α} {t : α} {i j : Nat} (hi : WheelPick ws t i)
    (hj : WheelPick ws t j) : i = j := by
  rcases lt_trichotomy i j with h | h | h
  · have := hj.2.1 i h
    rcases hi.2.2 with h' | h'
    · rw [this] at h'; cases h'
    · have := hj.1; omega
  · exact h
  · have := hi.2.1 j h
    rcases hj.2.2 with h' | h'
    · rw [this] at h'; cases h'
    · have := hi.1; omega

theorem wheelIndex_iff {α : Type} [Arith α] (ws : List α) (total u : α) (h : ws ≠ []) (j : Nat) :
    wheelIndex ws total u = .ok j ↔ WheelPick ws (u *ₐ total) j := by
  obtain ⟨i, h1, h2⟩ := wheelIndex_spec ws total u h
  rw [h1]
  constructor
  · intro e; cases e; exact h2
  · intro hj; rw [h2.unique hj]

/-! ### Rank -/

/-- `1 + 2 + … + n`. -/
def tri (n : Nat) : Nat := n * (n + 1) / 2

theorem tri_succ (n : Nat) : tri (n + 1) = tri n + (n + 1) := by
  unfold tri
  have : (n + 1) * (n + 1 + 1) = n * (n + 1) + (n + 1) * 2 := by ring
  rw [this, Nat.add_mul_div_right _ _ (by norm_num)]

theorem tri_mono {a b : Nat} (h : a ≤ b) : tri a ≤ tri b := by
  induction h with
  | refl => exact le_refl _
  | step _ ih => rw [Nat.succ_eq_add_one, tri_succ]; omega

theorem tri_two (n : Nat) : 2 * tri n = n * (n + 1) := by
  unfold tri
  exact Nat.mul_div_cancel' (even_iff_two_dvd.1 (Nat.even_mul_succ_self n))

theorem tri_pos {n : Nat} (h : 0 < n) : 0 < tri n := by
  have := tri_two n
  have : 0 < n * (n + 1) := by positivity
  omega

theorem totalRanks_ok {n : Nat} (h : n < 2 ^ 32) : totalRanks n = .ok (tri n) ∧ tri n < 2 ^ 63 := by
  have h1 : n * (n + 1) < 2 ^ 64 := by
    have : n * (n + 1) ≤ (2 ^ 32 - 1) * (2 ^ 32 - 1 + 1) := Nat.mul_le_mul (by omega) (by omega)
    norm_num at this ⊢
    omega
  refine ⟨?_, ?_⟩
  · unfold totalRanks usizeAdd usizeMul
    rw [if_pos (by omega)]
    simp only [Res.bind_ok]
    rw [if_pos h1]
    rfl
  · have := tri_two n
    omega

/-- Beyond `2^32 - 1` individuals the computation of the total rank overflows. -/
theorem totalRanks_overflow {n : Nat} (h : 2 ^ 32 ≤ n) : totalRanks n = .panic := by
  unfold totalRanks usizeAdd usizeMul
  split
  · simp only [Res.bind_ok]
    rw [if_neg]
    · rfl
    · have : 2 ^ 32 * (2 ^ 32 + 1) ≤ n * (n + 1) := Nat.mul_le_mul h (by omega)
      norm_num at this ⊢
      omega
  · rfl

theorem rankScan_ok (t fuel idx : Nat) (h1 : tri idx < t) (h2 : t ≤ tri (idx + fuel)) (h3 : tri (idx + fuel) < 2 ^ 64) :
    ∃ j, rankScan t fuel (tri idx) idx = .ok (some j) ∧ idx ≤ j ∧ j < idx + fuel ∧ tri j < t ∧ t ≤ tri (j + 1) := by
  induction fuel generalizing idx with
  | zero => rw [Nat.add_zero] at h2; omega
  | succ fuel ih =>
    have hle : tri (idx + 1) ≤ tri (idx + (fuel + 1)) := tri_mono (by omega)
    have hs := tri_succ idx
    unfold rankScan usizeAdd
    rw [if_pos (by omega)]
    simp only [Res.bind_ok]
    rw [if_pos (by omega)]
    simp only [Res.bind_ok]
    rw [← hs]
    split
    · rename_i h
      exact ⟨idx, rfl, le_refl _, by omega, h1, h⟩
    · rename_i h
      have e : idx + 1 + fuel = idx + (fuel + 1) := by omega
      obtain ⟨j, hj, h4, h5, h6⟩ := ih (idx + 1) (by omega) (by rw [e]; exact h2) (by rw [e]; exact h3)
      exact ⟨j, hj, by omega, by omega, h6⟩

theorem tri_cell_unique {t i j : Nat} (h1 : tri i < t) (h2 : t ≤ tri (i + 1)) (h3 : tri j < t) (h4 : t ≤ tri (j + 1)) :
    i = j := by
  rcases lt_trichotomy i j with h | h | h
  · have := tri_mono (show i + 1 ≤ j by omega); omega
  · exact h
  · have := tri_mono (show j + 1 ≤ i by omega); omega

theorem rankScan_iff {n t : Nat} (hn : n < 2 ^ 32) (ht : 1 ≤ t) (ht' : t ≤ tri n) (j : Nat) :
    rankScan t n 0 0 = .ok (some j) ↔ tri j < t ∧ t ≤ tri (j + 1) := by
  have h0 : tri 0 = 0 := rfl
  have h := rankScan_ok t n 0 (by omega) (by rw [Nat.zero_add]; exact ht')
    (by rw [Nat.zero_add]; have := (totalRanks_ok hn).2; omega)
  rw [h0] at h
  obtain ⟨i, hi, _, _, h1, h2⟩ := h
  rw [hi]
  constructor
  · intro e; cases e; exact ⟨h1, h2⟩
  · rintro ⟨h3, h4⟩; rw [tri_cell_unique h1 h2 h3 h4]

/-! ### Elitist -/

theorem inHalfOpenUnit_iff {x : F64} : inHalfOpenUnit x = true ↔ x.isFinite = true ∧ 0 ≤ x.val ∧ x.val < 1 := by
  unfold inHalfOpenUnit
  rw [Bool.and_eq_true]
  constructor
  · rintro ⟨h1, h2⟩
    have h := F64.unit_interval.1 ⟨h1, F64.le_of_lt h2⟩
    refine ⟨h.1, h.2.1, ?_⟩
    have := (F64.lt_finite h.1 F64.isFinite_one).1 h2
    simpa using this
  · rintro ⟨h1, h2, h3⟩
    exact ⟨(F64.zero_le_finite h1).2 h2, (F64.lt_finite h1 F64.isFinite_one).2 (by simpa using h3)⟩

theorem inClosedUnit_iff {x : F64} : inClosedUnit x = true ↔ x.isFinite = true ∧ 0 ≤ x.val ∧ x.val ≤ 1 := by
  unfold inClosedUnit
  rw [Bool.and_eq_true, F64.unit_interval]

theorem floor_fmt {q : ℚ} (h : Fmt q) : Fmt ((⌊q⌋ : Int) : ℚ) := by
  obtain ⟨m, e, hm, he, rfl⟩ := h
  by_cases he0 : 0 ≤ e
  · obtain ⟨z, hz, -⟩ := pow2_int he0
    have : (m : ℚ) * pow2 e = ((m * z : Int) : ℚ) := by rw [hz]; push_cast; ring
    rw [this, Int.floor_intCast, ← this]
    exact ⟨m, e, hm, he, rfl⟩
  · refine fmt_int ?_
    have hp : pow2 e ≤ 1 := by rw [← pow2_zero]; exact pow2_le.2 (by omega)
    have hp0 := pow2_pos e
    have hm' : (|m| : ℚ) < 2 ^ 53 := by exact_mod_cast hm
    rw [abs_lt] at hm'
    have h1 : (m : ℚ) * pow2 e < 2 ^ 53 := by nlinarith
    have h2 : -(2 ^ 53 : ℚ) ≤ (m : ℚ) * pow2 e := by nlinarith
    rw [abs_le]
    constructor
    · refine Int.le_floor.2 ?_
      push_cast; linarith
    · refine le_of_lt (Int.floor_lt.2 ?_)
      push_cast; linarith

theorem F64.floor_val {x : F64} (h : x.isFinite = true) (h0 : 0 ≤ x.val) :
    x.floor.isFinite = true ∧ x.floor.val = (⌊x.val⌋ : Int) := by
  cases x with
  | nan => cases h
  | inf s => cases h
  | nzero => exact ⟨rfl, by simp [F64.floor]⟩
  | fin q hq =>
    have hq0 : 0 ≤ q := h0
    have hfl : (0 : ℚ) ≤ (⌊q⌋ : Int) := by exact_mod_cast Int.floor_nonneg.2 hq0
    refine F64.round_rep ⟨floor_fmt hq.1, ?_⟩
    refine _root_.lt_of_le_of_lt ?_ hq.2
    rw [abs_of_nonneg hfl, abs_of_nonneg hq0]
    exact Int.floor_le q

theorem F64.toUsize_floor {x : F64} (h : x.isFinite = true) (h0 : 0 ≤ x.val) : x.floor.toUsize = x.toUsize := by
  obtain ⟨h1, h2⟩ := F64.floor_val h h0
  rw [F64.toUsize_finite h1, F64.toUsize_finite h, h2, Int.floor_intCast]

/-- The product `n * ratio` in `f64`. -/
theorem mul_ratio {n : Nat} (hn : n ≤ 2 ^ 53) {r : F64} (hr : inHalfOpenUnit r = true) :
    ((F64.ofNat n).mul r).isFinite = true ∧ ((F64.ofNat n).mul r).val = rndQ (n * r.val) ∧
      0 ≤ ((F64.ofNat n).mul r).val ∧ (0 < n → ((F64.ofNat n).mul r).val < n) := by
  obtain ⟨hf, h0, h1⟩ := inHalfOpenUnit_iff.1 hr
  obtain ⟨nf, nv⟩ := F64.ofNat_exact hn
  have hB : Rep (n : ℚ) := rep_nat hn
  have hle : |(n : ℚ) * r.val| ≤ n := by
    rw [abs_of_nonneg (by positivity)]
    exact mul_le_of_le_one_right (by positivity) h1.le
  have h2 := F64.mul_val (B := n) nf hf hB (by rw [nv]; exact hle)
  rw [nv] at h2
  refine ⟨h2.1, h2.2, ?_, ?_⟩
  · rw [h2.2]; exact rndQ_nonneg (by positivity)
  · intro hn0
    rw [h2.2]
    exact rndQ_mul_lt (by exact_mod_cast hn0) (F64.fmt_val r) h0 h1

theorem ElitistSelection.bound_spec (s : ElitistSelection) (hs : inHalfOpenUnit s.ratio = true) {n : Nat} (hn : n ≤ 2 ^ 53) :
    s.bound n = ⌊rndQ (n * s.ratio.val)⌋.toNat ∧ (0 < n → s.bound n < n) := by
  obtain ⟨h1, h2, h3, h4⟩ := mul_ratio hn hs
  unfold ElitistSelection.bound
  rw [F64.toUsize_floor h1 h3]
  refine ⟨?_, fun h => F64.toUsize_lt h1 (h4 h) h⟩
  rw [F64.toUsize_finite h1, h2, Nat.min_eq_left]
  have h5 : rndQ (n * s.ratio.val) ≤ (2 ^ 53 : Nat) := by
    rw [← h2]
    rcases Nat.eq_zero_or_pos n with h0 | h0
    · subst h0; rw [h2]; simp [rndQ_zero]
    · refine (h4 h0).le.trans ?_
      exact_mod_cast hn
  have h6 : ⌊rndQ (n * s.ratio.val)⌋ ≤ ((2 ^ 53 : Nat) : Int) := by
    have := Int.floor_le_floor h5
    rwa [Int.floor_natCast] at this
  omega

/-! ### `select_distinct` -/

theorem selectDistinct_succ (select : Prog (Nat × I)) (ex : I) (tries : Nat) :
    selectDistinct select ex (tries + 1) = select >>= fun c =>
      if Individual.eq c.2 ex = false then pure (some c) else selectDistinct select ex tries := rfl

theorem selectDistinct_some (select : Prog (Nat × I)) (ex : I) (tries : Nat) (c : Nat × I)
    (h : (selectDistinct select ex tries).yields (.ok (some c))) :
    Individual.eq c.2 ex = false ∧ select.yields (.ok c) := by
  induction tries with
  | zero => cases h
  | succ tries ih =>
    rw [selectDistinct_succ, Prog.yields_bind_ok] at h
    obtain ⟨c', hc, h⟩ := h
    split at h
    · rename_i he
      cases h
      exact ⟨he, hc⟩
    · exact ih h

theorem selectDistinct_always {select : Prog (Nat × I)} {Q : Nat × I → Prop} (hs : Prog.Always Q select) (ex : I)
    (tries : Nat) : Prog.Always (fun r => ∀ c, r = some c → Q c ∧ Individual.eq c.2 ex = false)
      (selectDistinct select ex tries) := by
  induction tries with
  | zero => simp [selectDistinct]
  | succ tries ih =>
    unfold selectDistinct
    rw [Prog.always_bind]
    refine hs.mono fun c hc => ?_
    simp only
    split
    · rename_i he
      rw [Prog.always_pure]
      rintro c' h; cases h; exact ⟨hc, he⟩
    · exact ih

end RG
