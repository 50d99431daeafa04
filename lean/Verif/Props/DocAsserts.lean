import Verif.Props.Documentation
import Verif.Props.SmallRng
import Verif.FloatText
import Verif.Interpolate

/-!
# Property C96: the other assertions of the documentation

Those with a seeded generator are `C87_documentation`, those of the two algorithms `C95_documentation`.
-/

namespace RG.Props
open RG RG.Prog

/-- `(x - y).abs() < 1e-6` -/
def closeTo (x y : F64) : Bool := (x.sub y).lt (F64.lit (1 / 1000000)) && (F64.lit (-1 / 1000000)).lt (x.sub y)

/-- **C96** The statistics of `stats.rs:19-31`, `stats.rs:113-132` and `stats.rs:262-279`. -/
theorem C96_stats :
    (let stats := Stats.collect [F64.lit 1, F64.lit 2, F64.lit 3, F64.lit 4, F64.lit 5]
     stats.getCount = 5 ∧ stats.getMin = some (F64.lit 1) ∧ stats.getArgMin = some 0 ∧ stats.getMax = some (F64.lit 5) ∧
      stats.getArgMax = some 4 ∧ stats.getAvg = some (F64.lit 3) ∧ stats.getVar = some (F64.lit (5 / 2)) ∧
      stats.getStd.any (closeTo · (F64.lit (158113883 / 100000000))) = true) ∧
    (let stats := ((((Stats.default.record (F64.lit 2)).record (F64.lit 5)).record (F64.lit 1)).record (F64.lit 4)).record (F64.lit 3)
     stats.getCount = 5 ∧ stats.getMin = some (F64.lit 1) ∧ stats.getArgMin = some 2 ∧ stats.getMax = some (F64.lit 5) ∧
      stats.getArgMax = some 1 ∧ stats.getAvg = some (F64.lit 3) ∧ stats.getVar = some (F64.lit (5 / 2)) ∧
      stats.getStd.any (closeTo · (F64.lit (158113883 / 100000000))) = true) ∧
    (PopulatedStats.tryFrom (Stats.collect [F64.lit 1, F64.lit 2, F64.lit 3, F64.lit 4, F64.lit 5])).any (fun stats =>
      decide (stats.count = 5 ∧ stats.min = F64.lit 1 ∧ stats.argMin = 0 ∧ stats.max = F64.lit 5 ∧ stats.argMax = 4 ∧
        stats.avg = F64.lit 3 ∧ stats.var = F64.lit (5 / 2)) && closeTo stats.std (F64.lit (158113883 / 100000000))) = true := by
  decide +kernel

/-- **C96** The texts of `stats.rs:165-197`. -/
theorem C96_display (up : Bool) :
    let samples := (Stats.default.record (F64.lit 3)).record (F64.lit 5)
    let s1 := samples.snapshot
    let samples := (samples.record (F64.lit 2)).record (F64.lit 4)
    let s2 := samples.snapshot
    let samples := samples.record (F64.lit 1)
    s1.map (fun s => s.fmt (FloatText up) (some 2)) =
      some "Samples: 2; Min: 3.00; Max: 5.00; Average: 4.00; Variance: 2.00; STD: 1.41" ∧
    s2.map (fun s => s.fmt (FloatText up) (some 2)) =
      some "Samples: 4; Min: 2.00; Max: 5.00; Average: 3.50; Variance: 1.67; STD: 1.29" ∧
    samples.fmt (FloatText up) (some 2) =
      "Samples: 5; Min: 1.00; Max: 5.00; Average: 3.00; Variance: 2.50; STD: 1.58" := by
  decide +kernel +revert

/-- **C96** The common neighbours and partitions of `operators.rs:127-135` and `operators.rs:194-202`. -/
theorem C96_partitions :
    commonNeighbors ltNat [1, 2, 3, 4, 5] [1, 3, 2, 4, 5] = .ok [(2, 3), (4, 5), (1, 5)] ∧
    commonPartitions ltNat [1, 2, 3, 4, 5] [1, 3, 2, 4, 5] = .ok [[1, 5, 4], [2, 3]] := by
  decide +kernel

/-- The selector of `crossover.rs:140-149`. -/
def docSelector (_ : Unit) (last : Option Nat) (partitions : List (List Nat)) : Prog (Nat × Unit) :=
  let preferred := last.bind fun g => partitions.findIdx? fun partition => decide ((g + 3) % 10 ∈ partition)
  pure (preferred.getD 0, ())

/-- The parents of the crossover examples. -/
def docParent1 : List Nat := [0, 1, 2, 3, 4, 5, 6, 7, 8, 9]

def docParent2 : List Nat := [8, 9, 0, 7, 4, 5, 6, 3, 2, 1]

/-- **C96** The crossover operators: `crossover.rs:131-151`, `crossover.rs:210-218`, `crossover.rs:409-417`, `crossover.rs:473-481`,
`crossover.rs:541-549` and `crossover.rs:623-631`, and for every order of the sets `crossover.rs:309-325`. -/
theorem C96_crossover :
    gpx2 ltNat docParent1 docParent2 (fun (s : Unit) _ _ => pure (0, s)) () = pure [0, 9, 8, 7, 4, 5, 6, 1, 2, 3] ∧
    gpx2 ltNat docParent1 docParent2 docSelector () = pure [0, 9, 8, 1, 2, 3, 4, 5, 6, 7] ∧
    scx docParent1 docParent2 2 = .ok [2, 1, 8, 9, 0, 7, 4, 5, 6, 3] ∧
    (∃ fuel, pmx fuel docParent1 docParent2 ⟨1, 4⟩ = .ok [8, 1, 2, 3, 4, 5, 6, 7, 0, 9]) ∧
    (∃ fuel, ox fuel docParent1 docParent2 ⟨1, 4⟩ = .ok [7, 1, 2, 3, 4, 5, 6, 8, 9, 0]) ∧
    cx docParent1 docParent2 = .ok [0, 9, 2, 3, 4, 5, 6, 7, 8, 1] ∧
    spx ['a', 'b', 'c', 'd', 'e'] ['v', 'w', 'x', 'y', 'z'] 3 = .ok ['a', 'b', 'c', 'y', 'z'] ∧
    ∀ ord : Nat → List Nat → List Nat, (∀ k l, (ord k l).Perm l) → ∃ offspring, erx ord docParent1 docParent2 2 = .ok offspring ∧
      offspring.length = docParent1.length ∧ offspring.dedup.length = docParent1.length ∧ ∀ gene ∈ offspring, gene ∈ docParent1 := by
  refine ⟨rfl, rfl, by decide +kernel, ⟨100, by decide +kernel⟩, ⟨100, by decide +kernel⟩, by decide +kernel, by decide +kernel,
    fun ord hord => ?_⟩
  obtain ⟨off, h1, h2, -⟩ := C24_erx ord hord docParent1 docParent2 (by decide) (by decide) (by decide) 2 (by decide)
  have hnd : off.Nodup := h2.nodup_iff.2 (by decide)
  exact ⟨off, h1, h2.length_eq, by rw [hnd.dedup]; exact h2.length_eq, fun g hg => h2.mem_iff.1 hg⟩

/-- **C96** The interpolations of `lib.rs:33-37` and `lib.rs:57-61`. -/
theorem C96_interpolate :
    closeTo (interpolateF64 (F64.lit 0) (F64.lit 10) (F64.lit (1 / 2))) (F64.lit 5) = true ∧
    interpolateUsize 0 10 (F64.lit (1 / 2)) = .ok 5 := by
  decide +kernel

end RG.Props
