import Verif.Prog

/-!
# Random draws of `rand` 0.8.5

`/repo` draws all its random numbers through `rand` 0.8.5 (`Cargo.toml:14`). The rest of the model describes such a draw as
one uniform choice. Here are the procedures of `rand` behind it, which make the number from 64-bit words of a generator and
may reject words; and `SmallRng`, the generator that `/repo` uses (`lib.rs:139-141`, and the seeded examples of its
documentation).

* `rand` is not part of `/repo`, and its source is not available here: the definitions follow the published source
  as remembered (`distributions/uniform.rs`, `distributions/float.rs`, `distributions/other.rs`, `seq/mod.rs`,
  `rngs/xoshiro256plusplus.rs`, `rand_core` 0.6.4 `lib.rs`), 64-bit targets. `C87_documentation` shows that they give the
  results that the documentation of `/repo` states for seeded generators.
* Words are numbers below `2^64`; a draw is a program over words, in which every choice is the choice of a word.
-/

namespace RG
namespace Rand

/-- `rng.next_u64()`, also `rng.gen::<u64>()` and `rng.gen::<usize>()`. -/
def nextU64 : Prog Nat := Prog.pick (2 ^ 64 - 1) pure

/-- `rng.next_u32()` of `SmallRng`, also `rng.gen::<u32>()`: the upper half of a word. -/
def nextU32 : Prog Nat := do
  let w ← nextU64
  pure (w / 2 ^ 32)

/-- The loop of `sample_single_inclusive` and of `UniformInt::sample`, for integers of `bits` bits:
`let (hi, lo) = v.wmul(range); if lo <= zone { return hi }`. It is given a bound on the number of words it may use. -/
def rejectLoop (next : Prog Nat) (bits range zone : Nat) : (tries : Nat) → Prog Nat
  | 0 => Prog.done .diverge
  | tries + 1 => do
    let v ← next
    let m := v * range
    if m % 2 ^ bits ≤ zone then pure (m / 2 ^ bits) else rejectLoop next bits range zone tries

/-- `range.leading_zeros()` for a positive integer of `bits` bits. -/
def leadingZeros (bits range : Nat) : Nat := bits - 1 - Nat.log2 range

/-- `UniformInt::sample_single_inclusive(low, high)`: the `zone` is `(range << range.leading_zeros()).wrapping_sub(1)`; when the
range is that of all integers, a word is returned as it is. -/
def sampleSingleInclusive (next : Prog Nat) (bits tries low high : Nat) : Prog Nat :=
  if low ≤ high then do
    let range := (high - low + 1) % 2 ^ bits
    if range = 0 then next
    else
      let zone := range * 2 ^ leadingZeros bits range - 1
      let hi ← rejectLoop next bits range zone tries
      pure ((low + hi) % 2 ^ bits)
  else Prog.done .panic

/-- `rng.gen_range(low..=high)` on `usize`. -/
def genRangeIncl (tries low high : Nat) : Prog Nat := sampleSingleInclusive nextU64 64 tries low high

/-- `rng.gen_range(low..high)` on `usize` (`sample_single`). -/
def genRangeExcl (tries low high : Nat) : Prog Nat :=
  if low < high then sampleSingleInclusive nextU64 64 tries low (high - 1) else Prog.done .panic

/-- `gen_index(rng, ubound)` of `seq/mod.rs`, used by `choose` and `shuffle`: 32-bit integers suffice for short slices. -/
def genIndex (tries ubound : Nat) : Prog Nat :=
  if ubound ≤ 2 ^ 32 - 1 then
    if 0 < ubound then sampleSingleInclusive nextU32 32 tries 0 (ubound - 1) else Prog.done .panic
  else genRangeExcl tries 0 ubound

/-- `Uniform::new(0, n)` on `usize` followed by `sample`: the number of words to reject is computed exactly. -/
def uniformSample (tries n : Nat) : Prog Nat :=
  if 0 < n then
    let range := n % 2 ^ 64
    if range = 0 then nextU64
    else
      let reject := (2 ^ 64 - 1 - range + 1) % range
      rejectLoop nextU64 64 range (2 ^ 64 - 1 - reject) tries
  else Prog.done .panic

/-- `rng.gen::<f64>()` is `(next_u64() >> 11) as f64 * 2^-53`; this is the integer. -/
def genFloat : Prog Nat := do
  let w ← nextU64
  pure (w / 2 ^ 11)

/-- `rng.gen::<bool>()` is `(next_u32() as i32) < 0`; 1 stands for `true`. -/
def genBit : Prog Nat := do
  let w ← nextU32
  pure (if 2 ^ 31 ≤ w then 1 else 0)

/-- The ways in which the library draws. -/
inductive Method where
  /-- `rng.gen_range(..)` -/
  | range
  /-- `slice.choose(rng)`, `slice.shuffle(rng)` -/
  | index
  /-- `rng.sample_iter(Uniform::new(0, n))` -/
  | uniform
  /-- `rng.gen::<f64>()` -/
  | float
  /-- `rng.sample_iter(Standard)` on `bool` -/
  | bit
deriving DecidableEq

/-- A draw of a number in `0..=n`. -/
def Method.draw (tries : Nat) : Method → (n : Nat) → Prog Nat
  | range, n => genRangeIncl tries 0 n
  | index, n => genIndex tries (n + 1)
  | uniform, n => uniformSample tries (n + 1)
  | float, _ => genFloat
  | bit, _ => genBit

/-- The method can draw from `0..=n`. -/
def Method.Fits : Method → Nat → Prop
  | float, n => n + 1 = 2 ^ 53
  | bit, n => n + 1 = 2
  | _, n => n < 2 ^ 64

instance (m : Method) (n : Nat) : Decidable (m.Fits n) := by
  cases m <;> unfold Method.Fits <;> infer_instance

/-- A program of the model made a program over words: each choice is replaced by a draw. Which method draws may depend on the
numbers drawn before (`drawn`). -/
def realize {α : Type} (method : List Nat → Method) (tries : Nat) : Prog α → (drawn : List Nat) → Prog α
  | .done r, _ => .done r
  | .pick n k, drawn => do
    let i ← (method drawn).draw tries n
    realize method tries (k i) (drawn ++ [i])

/-! ### `SmallRng` -/

/-- `Xoshiro256PlusPlus`, the generator inside `SmallRng` on 64-bit targets. -/
structure SmallRng where
  s0 : BitVec 64
  s1 : BitVec 64
  s2 : BitVec 64
  s3 : BitVec 64
deriving DecidableEq

namespace SmallRng

/-- The word returned by `next_u64`. -/
def output (s : SmallRng) : BitVec 64 := (s.s0 + s.s3).rotateLeft 23 + s.s0

/-- The state after `next_u64`. -/
def advance (s : SmallRng) : SmallRng :=
  let t := s.s1 <<< 17
  let s2 := s.s2 ^^^ s.s0
  let s3 := s.s3 ^^^ s.s1
  let s1 := s.s1 ^^^ s2
  let s0 := s.s0 ^^^ s3
  let s2 := s2 ^^^ t
  let s3 := s3.rotateLeft 45
  ⟨s0, s1, s2, s3⟩

/-- The `pcg32` function inside `SeedableRng::seed_from_u64` (`rand_core` 0.6.4): new state and 32 bits. -/
def pcg32 (state : BitVec 64) : BitVec 64 × BitVec 32 :=
  let state := state * 6364136223846793005#64 + 11634580027462260723#64
  let xorshifted := (((state >>> 18) ^^^ state) >>> 27).setWidth 32
  let rot := (state >>> 59).toNat
  (state, xorshifted.rotateRight rot)

/-- Two chunks of four bytes of the seed, read as one little-endian word. -/
def seedWord (state : BitVec 64) : BitVec 64 × BitVec 64 :=
  let (state, lo) := pcg32 state
  let (state, hi) := pcg32 state
  (state, hi ++ lo)

/-- One word of SplitMix64, as in `Xoshiro256PlusPlus::seed_from_u64`. -/
def splitMix (state : BitVec 64) : BitVec 64 :=
  let z := (state ^^^ (state >>> 30)) * 0xbf58476d1ce4e5b9#64
  let z := (z ^^^ (z >>> 27)) * 0x94d049bb133111eb#64
  z ^^^ (z >>> 31)

/-- `Xoshiro256PlusPlus::from_seed`: a seed of zeros is replaced by `seed_from_u64(0)`. -/
def fromSeed (s : SmallRng) : SmallRng :=
  if s = ⟨0, 0, 0, 0⟩ then
    let phi := 0x9e3779b97f4a7c15#64
    ⟨splitMix phi, splitMix (2 * phi), splitMix (3 * phi), splitMix (4 * phi)⟩
  else s

/-- `SmallRng::seed_from_u64`. -/
def seedFromU64 (state : Nat) : SmallRng :=
  let (state, s0) := seedWord (BitVec.ofNat 64 state)
  let (state, s1) := seedWord state
  let (state, s2) := seedWord state
  let (_, s3) := seedWord state
  fromSeed ⟨s0, s1, s2, s3⟩

/-- `next_u64` as a source of words for `Prog.exec`. -/
def draw (s : SmallRng) (_ : Nat) : Nat × SmallRng := (s.output.toNat, s.advance)

end SmallRng
end Rand
end RG
