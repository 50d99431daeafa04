import Verif.Unwind
import Verif.Proofs.Reentrant

/-!
# Lemmas about panics that a caller catches
-/

namespace RG
open Prog
variable {I : Type} [Individual I] {Mo U A P Q S T : Type} {α β : Type}

namespace Prog

theorem attempt_lift_ok (a : α) : (Prog.lift (.ok a)).attempt = pure (some a) := rfl
theorem attempt_lift_panic : (Prog.lift (.panic : Res α)).attempt = pure none := rfl

theorem attempt_bind (p : Prog α) (f : Option α → Prog β) (hn : f none = Prog.lift .panic) :
    p.attempt >>= f = p >>= fun a => f (some a) := by
  induction p with
  | done r =>
    cases r with
    | ok a => rfl
    | panic => exact hn
    | diverge => rfl
  | pick n k ih =>
    simp only [attempt, bind_pick]
    congr 1
    funext i
    exact ih i

theorem yields_attempt_some (p : Prog α) (a : α) : p.attempt.yields (.ok (some a)) ↔ p.yields (.ok a) := by
  induction p with
  | done r => cases r <;> simp [attempt]
  | pick n k ih => simp only [attempt, yields_pick, ih]

theorem yields_attempt_none (p : Prog α) : p.attempt.yields (.ok none) ↔ p.yields .panic := by
  induction p with
  | done r => cases r <;> simp [attempt]
  | pick n k ih => simp only [attempt, yields_pick, ih]

end Prog

namespace Unwinding

theorem bind_apply (m : Unwinding S α) (f : α → Unwinding S β) (s : S) :
    (m >>= f) s = m s >>= fun r => match r.2 with
      | some a => f a r.1
      | none => pure (r.1, none) := rfl

theorem pure_apply (a : α) (s : S) : (pure a : Unwinding S α) s = pure (s, some a) := rfl

theorem rethrow_pure (a : α) (s : S) : (pure a : Unwinding S α).rethrow s = pure (a, s) := rfl

theorem rethrow_bind (m : Unwinding S α) (f : α → Unwinding S β) (s : S) :
    (m >>= f).rethrow s = m.rethrow s >>= fun r => (f r.1).rethrow r.2 := by
  unfold rethrow
  rw [bind_apply]
  simp only [bind_assoc]
  refine bind_congr fun r => ?_
  obtain ⟨s', o⟩ := r
  cases o <;> rfl

theorem rethrow_assign (f : S → S) (s : S) : (assign f).rethrow s = pure ((), f s) := rfl

theorem rethrow_eval (f : S → Prog α) (s : S) : (eval f).rethrow s = f s >>= fun a => pure (a, s) := by
  unfold rethrow eval
  simp only [bind_assoc, bind_pure_left]
  exact attempt_bind _ _ rfl

theorem rethrow_within (get : S → T) (set : S → T → S) (m : Unwinding T α) (s : S) :
    (within get set m).rethrow s = m.rethrow (get s) >>= fun r => pure (r.1, set s r.2) := by
  unfold rethrow within
  simp only [bind_assoc, bind_pure_left]
  refine bind_congr fun r => ?_
  obtain ⟨t, o⟩ := r
  cases o <;> rfl

theorem Keeps.pure {R : S → S → Prop} (h : ∀ s, R s s) (a : α) : Keeps R (Pure.pure a : Unwinding S α) := fun s =>
  (partially_pure _ _).2 (h s)

theorem Keeps.bind {R : S → S → Prop} (h : ∀ a b c, R a b → R b c → R a c) {m : Unwinding S α} {f : α → Unwinding S β}
    (hm : Keeps R m) (hf : ∀ a, Keeps R (f a)) : Keeps R (m >>= f) := by
  intro s
  rw [bind_apply, partially_bind]
  intro r hr
  have h1 := hm s r hr
  obtain ⟨s', o⟩ := r
  cases o with
  | none => exact (partially_pure _ _).2 h1
  | some a => exact fun r hr => h _ _ _ h1 (hf a s' r hr)

theorem Keeps.eval {R : S → S → Prop} (h : ∀ s, R s s) (f : S → Prog α) : Keeps R (Unwinding.eval f) := by
  intro s
  unfold Unwinding.eval
  rw [partially_bind]
  exact fun r _ => (partially_pure _ _).2 (h s)

theorem Keeps.assign {R : S → S → Prop} {f : S → S} (h : ∀ s, R s (f s)) : Keeps R (Unwinding.assign f) := fun s =>
  (partially_pure _ _).2 (h s)

theorem Keeps.within {R : S → S → Prop} {R' : T → T → Prop} {get : S → T} {set : S → T → S} {m : Unwinding T α}
    (hm : Keeps R' m) (h : ∀ s t, R' (get s) t → R s (set s t)) : Keeps R (Unwinding.within get set m) := by
  intro s
  unfold Unwinding.within
  rw [partially_bind]
  exact fun r hr => (partially_pure _ _).2 (h _ _ (hm _ r hr))

end Unwinding

open Unwinding

theorem rethrow_readCell (f : A → Prog β) (a : A) (q : Q) :
    (readCell f).rethrow (Cell.new a, q) = f a >>= fun b => pure (b, (Cell.new a, q)) :=
  rethrow_eval (fun s : Cell A × Q => f s.1.value) (Cell.new a, q)

theorem rethrow_writeCell (m : Unwinding A Unit) (a : A) (q : Q) :
    (writeCell m).rethrow (Cell.new a, q) = m.rethrow a >>= fun r => pure (r.1, (Cell.new r.2, q)) :=
  rethrow_within (fun s : Cell A × Q => s.1.value) (fun s a => ({ s.1 with value := a }, s.2)) m (Cell.new a, q)

end RG
