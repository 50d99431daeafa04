import Verif.Display
import Verif.Proofs.Stats
import Std.Data.String.ToNat
import Mathlib.Data.List.Basic

/-!
# Property C77: the text of the statistics

Specification: the text is a list of `label: value` items separated by `"; "` (`summaryText`).
-/

namespace RG.Props
open RG RG.Arith

/-- `label: value` items separated by `"; "`. -/
def summaryText (items : List (String × String)) : String :=
  String.intercalate "; " (items.map fun x => x.1 ++ ": " ++ x.2)

variable {α : Type} [Arith α] [ArithSqrt α]

private theorem template (a b c d e f : String) :  "Samples: " ++ a ++ "; Min: " ++ b ++ "; Max: " ++ c ++
      "; Average: " ++ d ++ "; Variance: " ++ e ++ "; STD: " ++ f = 
      String.intercalate "; " ["Samples" ++ ": " ++ a, "Min" ++ ": " ++ b, "Max" ++ ": " ++ c, "Average" ++ ": " ++ d,
       "Variance" ++ ": " ++ e, "STD" ++ ": " ++ f] := by
  have e1 : "Samples: " = "Samples" ++ ": " := by decide +kernel
  have e2 : "; Min: " = "; " ++ ("Min" ++ ": ") := by decide +kernel
  have e3 : "; Max: " = "; " ++ ("Max" ++ ": ") := by decide +kernel
  have e4 : "; Average: " = "; " ++ ("Average" ++ ": ") := by decide +kernel
  have e5 : "; Variance: " = "; " ++ ("Variance" ++ ": ") := by decide +kernel
  have e6 : "; STD: " = "; " ++ ("STD" ++ ": ") := by decide +kernel
  rw [e1, e2, e3, e4, e5, e6]
  generalize "; " = s0
  generalize ": " = s1
  generalize "Samples" = s2
  generalize "Min" = s3
  generalize "Max" = s4
  generalize "Average" = s5
  generalize "Variance" = s6
  generalize "STD" = s7
  refine String.toList_inj.mp ?_
  simp only [String.toList_append, String.toList_intercalate,
      List.map_cons, List.map_nil, List.intercalate, List.intersperse, List.flatten_cons, List.flatten_nil,
      List.append_assoc, List.append_nil]

private theorem populated_fmt (F : FloatFormat α) (precision : Option Nat) (p : PopulatedStats α) :
    p.fmt F precision = summaryText
      [("Samples", Nat.repr p.count), ("Min", F.at precision p.min), ("Max", F.at precision p.max),
        ("Average", F.at precision p.avg), ("Variance", F.at precision p.var), ("STD", F.at precision p.std)] := by
  cases precision <;> exact template _ _ _ _ _ _

/-- **C77** The text of the statistics of any samples: nothing without samples, otherwise the number of samples, the
minimum, the maximum, the average, the variance and the standard deviation — the values the accessors return — all
written with the precision asked for. -/
theorem C77_text (F : FloatFormat α) (precision : Option Nat) (samples : List α) :
    (samples = [] → (Stats.collect samples).fmt F precision = "") ∧
    (samples ≠ [] → ∃ min max avg var std,
      (Stats.collect samples).getMin = some min ∧ (Stats.collect samples).getMax = some max ∧
      (Stats.collect samples).getAvg = some avg ∧ (Stats.collect samples).getVar = some var ∧
      (Stats.collect samples).getStd = some std ∧
      (Stats.collect samples).fmt F precision = summaryText
        [("Samples", Nat.repr samples.length), ("Min", F.at precision min), ("Max", F.at precision max),
          ("Average", F.at precision avg), ("Variance", F.at precision var), ("STD", F.at precision std)]) := by
  refine ⟨fun h => by subst h; rfl, fun h => ?_⟩
  have hc : (Stats.collect samples).count ≠ 0 := by
    rw [Stats.collect_count]; simpa using h
  refine ⟨_, _, _, _, _, Stats.getMin_of hc, Stats.getMax_of hc, Stats.getAvg_of hc, Stats.getVar_of hc,
    by rw [Stats.getStd, Stats.getVar_of hc]; rfl, ?_⟩
  rw [← Stats.collect_count samples]
  simp only [Stats.fmt, Stats.snapshot, if_pos hc, Option.map_some, Option.getD_some, populated_fmt]
  rfl

/-- A summary and the statistics it was taken from print the same text. -/
theorem C77_snapshot (F : FloatFormat α) (precision : Option Nat) (s : Stats α) (p : PopulatedStats α)
    (h : s.snapshot = some p) : p.fmt F precision = s.fmt F precision := by
  simp [Stats.fmt, h]

private theorem repr_no_semicolon (n : Nat) : ';' ∉ (Nat.repr n).toList := by
  rw [Nat.toList_repr]
  intro h
  have := Nat.isDigit_of_mem_toDigits (by decide) (by decide) h
  exact absurd this (by decide)

private theorem cut_semicolon : {a b x y : List Char} → ';' ∉ a → ';' ∉ b → a ++ ';' :: x = b ++ ';' :: y →
    a = b ∧ x = y
  | [], [], _, _, _, _, h => ⟨rfl, by simpa using h⟩
  | [], c :: b, _, _, _, hb, h => by
    simp only [List.nil_append, List.cons_append, List.cons.injEq] at h
    exact absurd (h.1 ▸ List.mem_cons_self) hb
  | c :: a, [], _, _, ha, _, h => by
    simp only [List.nil_append, List.cons_append, List.cons.injEq] at h
    exact absurd (h.1 ▸ List.mem_cons_self) ha
  | c :: a, d :: b, _, _, ha, hb, h => by
    simp only [List.cons_append, List.cons.injEq] at h
    obtain ⟨e, e'⟩ := cut_semicolon (fun m => ha (List.mem_cons_of_mem _ m)) (fun m => hb (List.mem_cons_of_mem _ m)) h.2
    exact ⟨by rw [h.1, e], e'⟩

/-- **C77** The text can be read back, because written numbers contain no semicolon: two statistics with the same text
have the same number of samples, and the five values they print are written alike. -/
theorem C77_readable (F : FloatFormat α) (precision : Option Nat)
    (hF : ∀ x, ';' ∉ (F.at precision x).toList) (p q : PopulatedStats α)
    (h : p.fmt F precision = q.fmt F precision) :
    p.count = q.count ∧ F.at precision p.min = F.at precision q.min ∧ F.at precision p.max = F.at precision q.max ∧
      F.at precision p.avg = F.at precision q.avg ∧ F.at precision p.var = F.at precision q.var ∧
      F.at precision p.std = F.at precision q.std := by
  rw [populated_fmt, populated_fmt] at h
  have h' := congrArg String.toList h
  simp only [summaryText, String.toList_append, String.toList_intercalate, List.map_cons, List.map_nil,
    List.intercalate, List.intersperse, List.flatten_cons, List.flatten_nil, List.append_assoc, List.append_nil,
    List.append_cancel_left_eq, show ("; " : String).toList = [';', ' '] from by decide +kernel, List.cons_append,
    List.nil_append] at h'
  obtain ⟨h1, h'⟩ := cut_semicolon (repr_no_semicolon _) (repr_no_semicolon _) h'
  simp only [List.cons.injEq, true_and, List.append_cancel_left_eq] at h'
  obtain ⟨h2, h'⟩ := cut_semicolon (hF _) (hF _) h'
  simp only [List.cons.injEq, true_and, List.append_cancel_left_eq] at h'
  obtain ⟨h3, h'⟩ := cut_semicolon (hF _) (hF _) h'
  simp only [List.cons.injEq, true_and, List.append_cancel_left_eq] at h'
  obtain ⟨h4, h'⟩ := cut_semicolon (hF _) (hF _) h'
  simp only [List.cons.injEq, true_and, List.append_cancel_left_eq] at h'
  obtain ⟨h5, h'⟩ := cut_semicolon (hF _) (hF _) h'
  simp only [List.cons.injEq, true_and, List.append_cancel_left_eq] at h'
  exact ⟨Nat.repr_injective (String.toList_injective h1), String.toList_injective h2, String.toList_injective h3,
    String.toList_injective h4, String.toList_injective h5, String.toList_injective h'⟩

/-- A number format for the examples: numerator and denominator. -/
def ratioFormat : FloatFormat F64 where
  plain x := toString x.val.num ++ "/" ++ toString x.val.den
  digits p x := toString (x.val * 10 ^ p).floor ++ "e-" ++ toString p

example : (Stats.collect [F64.lit 1, F64.lit 2, F64.lit 6]).fmt ratioFormat none =
    "Samples: 3; Min: 1/1; Max: 6/1; Average: 3/1; Variance: 7/1; STD: 2978851154656373/1125899906842624" := by
  decide +kernel
example : (Stats.collect [F64.lit 1, F64.lit 2, F64.lit 6]).fmt ratioFormat (some 2) =
    "Samples: 3; Min: 100e-2; Max: 600e-2; Average: 300e-2; Variance: 700e-2; STD: 264e-2" := by
  decide +kernel

private theorem int_no_semicolon (z : Int) : ';' ∉ (toString z).toList := by
  cases z with
  | ofNat n => exact repr_no_semicolon n
  | negSucc n =>
    rw [show toString (Int.negSucc n) = "-" ++ Nat.repr (n + 1) from rfl, String.toList_append]
    simpa using repr_no_semicolon (n + 1)

/-- The hypothesis of `C77_readable` is met by this format. -/
example (x : F64) : ';' ∉ (ratioFormat.at none x).toList := by
  have h1 := int_no_semicolon x.val.num
  have h2 := repr_no_semicolon x.val.den
  simp only [FloatFormat.at, ratioFormat, String.toList_append, List.mem_append, not_or]
  exact ⟨⟨h1, by decide⟩, h2⟩

end RG.Props
