import Verif.Writing
import Verif.Props.Display
import Verif.Props.FloatText

/-!
# C117: writing the statistics

Specification: `Handed` says which pieces a writer was given; `buffer`, `sink` and `closed` are three writers.
-/

namespace RG.Props
open RG RG.Arith
variable {α : Type} [Arith α] [ArithSqrt α] {S : Type}

/-- The writer in state `s` was given the pieces one after the other and is now in state `s'`. It accepted them all, or all but the
last. -/
inductive Handed (w : Writer S) : S → List String → S → Bool → Prop
  | nothing (s : S) : Handed w s [] s true
  | accepted {s s₁ s₂ : S} {p : String} {ps : List String} {ok : Bool} (h : w p s = (s₁, true)) (t : Handed w s₁ ps s₂ ok) :
    Handed w s (p :: ps) s₂ ok
  | refused {s s₁ : S} {p : String} (h : w p s = (s₁, false)) : Handed w s [p] s₁ false

/-- A buffer with room for `cap` bytes that refuses a piece which does not fit. -/
def buffer (cap : Nat) : Writer String := fun p s =>
  if (s ++ p).utf8ByteSize ≤ cap then (s ++ p, true) else (s, false)

/-- `String`: accepts everything. -/
def sink : Writer String := fun p s => (s ++ p, true)

/-- Refuses everything, and counts how often. -/
def closed : Writer Nat := fun _ n => (n + 1, false)

/-- Handing over a list of pieces. -/
theorem all_handed (w : Writer S) (ps : List String) (s : S) :
    ∃ given rest, ps = given ++ rest ∧ Handed w s given (w.all ps s).1 (w.all ps s).2 ∧ ((w.all ps s).2 = true → rest = []) := by
  induction ps generalizing s with
  | nil => exact ⟨[], [], rfl, .nothing s, fun _ => rfl⟩
  | cons p ps ih =>
    rw [Writer.all]
    rcases h : w p s with ⟨s₁, b⟩
    cases b with
    | true =>
      obtain ⟨given, rest, e, hh, hr⟩ := ih s₁
      exact ⟨p :: given, rest, by rw [e]; rfl, .accepted h hh, hr⟩
    | false => exact ⟨[p], ps, rfl, .refused h, fun h => by cases h⟩

theorem join_template (a b c d e f : String) (u v w x y z : List String) :
    String.join ([a] ++ u ++ [b] ++ v ++ [c] ++ w ++ [d] ++ x ++ [e] ++ y ++ [f] ++ z) =
      a ++ String.join u ++ b ++ String.join v ++ c ++ String.join w ++ d ++ String.join x ++ e ++ String.join y ++ f ++
        String.join z := by
  have one (x : String) : String.join [x] = x := by rw [String.join_cons, String.join_nil, String.append_empty]
  simp only [String.join_append, one]

theorem join_pieces (N : NumberPieces α) (hN : N.Decimal) (s : PopulatedStats α) (f : FormatOptions) :
    String.join (s.pieces N f) = s.fmt N.format f.precision := by
  cases h : f.precision with
  | none =>
    simp only [PopulatedStats.pieces, h]
    rw [join_template, hN]
    rfl
  | some p =>
    simp only [PopulatedStats.pieces, h]
    rw [join_template, hN]
    rfl

/-- The pieces of the text. -/
theorem write_pieces (N : NumberPieces α) (hN : N.Decimal) (s : Stats α) (f : FormatOptions) :
    ∃ ps, (∀ {S : Type} (w : Writer S) (st : S), s.write N w f st = w.all ps st) ∧
      String.join ps = s.fmt N.format f.precision ∧ (s.count = 0 → ps = []) ∧ (s.count ≠ 0 → ps ≠ []) := by
  by_cases hc : s.count = 0
  · refine ⟨[], fun w st => ?_, ?_, fun _ => rfl, fun h => absurd hc h⟩
    · simp [Stats.write, Stats.snapshot, hc, Writer.all]
    · simp [Stats.fmt, Stats.snapshot, hc, String.join]
  · have hs : s.snapshot = some ⟨s⟩ := by rw [Stats.snapshot, if_pos hc]
    refine ⟨(PopulatedStats.mk s).pieces N f, fun w st => ?_, ?_, fun h => absurd h hc, fun _ => ?_⟩
    · rw [Stats.write, hs]; rfl
    · rw [Stats.fmt, hs, Option.map_some, Option.getD_some]
      exact join_pieces N hN _ f
    · rw [PopulatedStats.pieces]
      cases f.precision <;> simp

/-- **C117** (options) Of all the options of a formatter only the precision matters: width, fill, alignment and the other flags have no
effect on what is written, whatever the writer. -/
theorem C117_options (N : NumberPieces α) (w : Writer S) (f f' : FormatOptions) (h : f.precision = f'.precision) (s : Stats α) (st : S) :
    s.write N w f st = s.write N w f' st := by
  simp only [Stats.write, PopulatedStats.write, PopulatedStats.pieces, h]

/-- **C117** (writers) Whatever the writer: it is given the text of C77 from the front, in pieces, and nothing after the first piece it
refuses; the result is `Ok` exactly if it accepted the whole text. Without samples it is given nothing, and the result is `Ok`. -/
theorem C117_handed (N : NumberPieces α) (hN : N.Decimal) (w : Writer S) (f : FormatOptions) (s : Stats α) (st st' : S) (ok : Bool)
    (h : s.write N w f st = (st', ok)) :
    (∃ given, Handed w st given st' ok ∧
      (∃ rest, String.join given ++ rest = s.fmt N.format f.precision) ∧
      (ok = true → String.join given = s.fmt N.format f.precision)) ∧
    (s.count = 0 → st' = st ∧ ok = true) ∧
    (s.count ≠ 0 → ∃ first given, Handed w st (first :: given) st' ok) := by
  obtain ⟨ps, h1, h2, h3, h4⟩ := write_pieces N hN s f
  rw [h1] at h
  obtain ⟨given, rest, e, hh, hr⟩ := all_handed w ps st
  rw [h] at hh hr
  refine ⟨⟨given, hh, ⟨String.join rest, by rw [← h2, e, String.join_append]⟩, fun hok => ?_⟩, fun hc => ?_, fun hc => ?_⟩
  · have := hr hok
    subst this
    rw [← h2, e, List.append_nil]
  · rw [h3 hc] at h
    cases h
    exact ⟨rfl, rfl⟩
  · cases given with
    | nil =>
      cases hh
      have := hr rfl
      subst this
      exact absurd e (h4 hc)
    | cons first given => exact ⟨first, given, hh⟩

theorem sink_all (ps : List String) (st : String) : sink.all ps st = (st ++ String.join ps, true) := by
  induction ps generalizing st with
  | nil => simp [Writer.all]
  | cons p ps ih =>
    rw [show sink.all (p :: ps) st = sink.all ps (st ++ p) from rfl, ih, String.join_cons, String.append_assoc]

/-- **C117** (`to_string`) A `String` receives the whole text. -/
theorem C117_string (N : NumberPieces α) (hN : N.Decimal) (f : FormatOptions) (s : Stats α) (st : String) :
    s.write N sink f st = (st ++ s.fmt N.format f.precision, true) := by
  obtain ⟨ps, h1, h2, -⟩ := write_pieces N hN s f
  rw [h1, sink_all, h2]

theorem buffer_all (cap : Nat) (ps : List String) (st : String) (h : st.utf8ByteSize ≤ cap) :
    ((buffer cap).all ps st).2 = decide ((st ++ String.join ps).utf8ByteSize ≤ cap) ∧
      (((buffer cap).all ps st).2 = true → ((buffer cap).all ps st).1 = st ++ String.join ps) ∧
      ((buffer cap).all ps st).1.utf8ByteSize ≤ cap ∧
      ∃ given rest, ((buffer cap).all ps st).1 = st ++ given ∧ String.join ps = given ++ rest := by
  induction ps generalizing st with
  | nil => exact ⟨by simp [Writer.all, h], fun _ => by simp [Writer.all], h, "", "", by simp [Writer.all]⟩
  | cons p ps ih =>
    by_cases hp : (st ++ p).utf8ByteSize ≤ cap
    · have e : (buffer cap).all (p :: ps) st = (buffer cap).all ps (st ++ p) := by
        simp only [Writer.all, buffer, if_pos hp]
      obtain ⟨i1, i2, i3, given, rest, i4, i5⟩ := ih (st ++ p) hp
      rw [e, String.join_cons, ← String.append_assoc]
      exact ⟨i1, i2, i3, p ++ given, rest, by rw [i4, String.append_assoc], by rw [i5, String.append_assoc]⟩
    · have e : (buffer cap).all (p :: ps) st = (st, false) := by
        simp only [Writer.all, buffer, if_neg hp]
      rw [e]
      refine ⟨?_, (by simp), h, "", String.join (p :: ps), by simp, by simp⟩
      rw [eq_comm, decide_eq_false_iff_not, String.join_cons, ← String.append_assoc, String.utf8ByteSize_append]
      omega

/-- **C117** (buffer) Writing to a buffer with limited room succeeds exactly if the whole text fits, in whatever pieces the numbers are
handed over; then the buffer ends with the text. Otherwise it holds a beginning of it. -/
theorem C117_buffer (N : NumberPieces α) (hN : N.Decimal) (f : FormatOptions) (s : Stats α) (cap : Nat) (st st' : String) (ok : Bool)
    (hst : st.utf8ByteSize ≤ cap) (h : s.write N (buffer cap) f st = (st', ok)) :
    (ok = true ↔ (st ++ s.fmt N.format f.precision).utf8ByteSize ≤ cap) ∧
    (ok = true → st' = st ++ s.fmt N.format f.precision) ∧ st'.utf8ByteSize ≤ cap ∧
    ∃ given rest, st' = st ++ given ∧ s.fmt N.format f.precision = given ++ rest := by
  obtain ⟨ps, h1, h2, -⟩ := write_pieces N hN s f
  rw [h1] at h
  obtain ⟨b1, b2, b3, b4⟩ := buffer_all cap ps st hst
  rw [h, h2] at b1 b2 b4
  rw [h] at b3
  refine ⟨?_, b2, b3, b4⟩
  show ok = true ↔ _
  rw [show ok = _ from b1, decide_eq_true_eq]

/-- **C117** (closed) A writer that refuses everything is asked exactly once if there are samples, and never if there are none. -/
theorem C117_closed (N : NumberPieces α) (hN : N.Decimal) (f : FormatOptions) (s : Stats α) :
    s.write N closed f 0 = if s.count = 0 then (0, true) else (1, false) := by
  obtain ⟨ps, h1, -, h3, h4⟩ := write_pieces N hN s f
  rw [h1]
  split
  · rename_i h; rw [h3 h]; rfl
  · rename_i h
    cases ps with
    | nil => exact absurd rfl (h4 h)
    | cons p ps => rfl

/-! ### An example -/

/-- Numbers handed over character by character. -/
def letterwise : NumberPieces F64 where
  count _ n := (Nat.repr n).toList.map String.singleton
  float f x := ((FloatText true).at f.precision x).toList.map String.singleton

theorem join_letters (s : String) : String.join (s.toList.map String.singleton) = s := by
  refine String.toList_inj.mp ?_
  rw [String.toList_join, List.flatMap_map]
  simp

theorem letterwise_decimal : letterwise.Decimal := fun _ => join_letters _

theorem letterwise_format : letterwise.format = FloatText true := by
  have h1 : letterwise.format.plain = (FloatText true).plain := funext fun x => join_letters _
  have h2 : letterwise.format.digits = (FloatText true).digits := funext fun p => funext fun x => join_letters _
  exact FloatFormat.ext h1 h2

-- a width of 100 has no effect, a precision of 2 has
example : (Stats.collect [F64.lit 1, F64.lit 2, F64.lit 6]).write letterwise sink
      { width := some 100, precision := some 2, align := some .right } "" =
    ("Samples: 3; Min: 1.00; Max: 6.00; Average: 3.00; Variance: 7.00; STD: 2.65", true) := by
  rw [C117_string _ letterwise_decimal, letterwise_format]
  decide +kernel

-- room for 20 bytes
example : (Stats.collect [F64.lit 1, F64.lit 2, F64.lit 6]).write letterwise (buffer 20) { precision := some 2 } "" =
    ("Samples: 3; Min: 1.0", false) := by decide +kernel

-- the same text in whole numbers: less of it is delivered
example : (Stats.collect [F64.lit 1, F64.lit 2, F64.lit 6]).write ⟨fun _ n => [Nat.repr n], fun f x => [(FloatText true).at f.precision x]⟩
    (buffer 20) { precision := some 2 } "" = ("Samples: 3; Min: ", false) := by decide +kernel

end RG.Props
