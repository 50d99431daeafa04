import Verif.Algorithm

/-!
# Parallel tasks and the pool of random number generators

* `rayon` runs the items of `par_extend(repeatn(..).map_init(init, f))` and `par_iter_mut().for_each_with(..)` as tasks of several
  threads: it cuts the items into pieces in a way that depends on timing, calls `init` once per piece, handles the items of a piece
  one after another, and puts the results in the order of the items. Uses: `algorithms.rs:169-171, 226-229`,
  `model.rs:243-247, 280-286`.
* `Runs` describes this with independent random draws: at every moment some unfinished item makes its next draw. Which one may
  depend on everything that happened before.
* `Machine` describes it with concrete generators and the pool (`object_pool::Pool` 0.5.4). Neither `rayon` nor `object_pool` is part
  of `/repo`, and their sources are not available here: that the pool is a stack, filled by `n` calls in `Pool::new(n, ..)`, is from
  memory. Only `C92_one_thread` and `C92_generate_one_thread` depend on the order in which the pool hands out generators.
  Simplification: a piece is any set of items, not only consecutive ones, and an item is run at once; since generators are not
  shared while in use, the order of steps of different pieces does not matter.
-/

namespace RG
namespace Prog
variable {α : Type}

/-- One task after another. -/
def inOrder : List (Prog α) → Prog (List α)
  | [] => pure []
  | p :: ps => do
    let a ← p
    let as ← inOrder ps
    pure (a :: as)

/-- `Runs tasks q`: the program `q` makes the draws of the tasks in some order, chosen while running, and ends with the results in the
order of the tasks. As soon as a task has failed (`panic`, or a loop that never ends), the whole may end with this failure; it need
not, and other tasks may go on. -/
inductive Runs : List (Prog α) → Prog (List α) → Prop
  | finished (as : List α) : Runs (as.map fun a => done (.ok a)) (done (.ok as))
  | failed (tasks : List (Prog α)) (r : Res α) (r' : Res (List α)) (mem : done r ∈ tasks)
      (fails : (r = .panic ∧ r' = .panic) ∨ (r = .diverge ∧ r' = .diverge)) : Runs tasks (done r')
  | draw (before : List (Prog α)) (n : Nat) (k : Nat → Prog α) (after : List (Prog α)) (q : Nat → Prog (List α))
      (next : ∀ i, i ≤ n → Runs (before ++ k i :: after) (q i)) : Runs (before ++ pick n k :: after) (pick n q)

end Prog

/-! ### The pool -/

/-- `object_pool::Pool`: the idle generators, the one attached last first, and how many were made with `M::rng`. -/
structure RngPool (σ : Type) where
  idle : List σ
  made : Nat

namespace RngPool
variable {σ : Type}

/-- `Pool::new(threads, M::rng)` — `evolution.rs:152`. `make i` is the result of the `i`-th call of `M::rng`. -/
def new (make : Nat → σ) (threads : Nat) : RngPool σ := ⟨(List.range threads).reverse.map make, threads⟩

/-- `rng_pool.pull(M::rng)` — `algorithms.rs:221, 227`: the generator attached last, or a new one. -/
def pull (make : Nat → σ) (pool : RngPool σ) : σ × RngPool σ :=
  match pool.idle with
  | g :: idle => (g, ⟨idle, pool.made⟩)
  | [] => (make pool.made, ⟨[], pool.made + 1⟩)

/-- `Drop for Reusable`: the generator goes back to the pool. -/
def attach (pool : RngPool σ) (g : σ) : RngPool σ := ⟨g :: pool.idle, pool.made⟩

end RngPool

/-- What a thread can do next. -/
inductive Event where
  /-- a piece begins: `init` is called — `algorithms.rs:227` -/
  | start (piece : Nat)
  /-- an item of a running piece — `algorithms.rs:228` -/
  | item (piece i : Nat)
  /-- a piece ends: its generator is dropped, that is, goes back to the pool -/
  | finish (piece : Nat)

/-- The pool, the running pieces with their generators, and the results of the items. -/
structure Machine (σ α : Type) where
  pool : RngPool σ
  running : Nat → Option σ
  result : Nat → Option (Res α)

namespace Machine
variable {σ α : Type}

/-- At the call of `par_extend`: no piece is running and there are no results. -/
def init (pool : RngPool σ) : Machine σ α := ⟨pool, fun _ => none, fun _ => none⟩

/-- One event. `item i` is the program of item `i`, `draw` the generator. `none`: the event cannot happen (a piece starts or ends
once, an item is run once). -/
def step (make : Nat → σ) (draw : σ → Nat → Nat × σ) (item : Nat → Prog α) (m : Machine σ α) : Event → Option (Machine σ α)
  | .start j =>
    match m.running j with
    | some _ => none
    | none =>
      let (g, pool) := m.pool.pull make
      some { m with pool, running := Function.update m.running j (some g) }
  | .item j i =>
    match m.running j, m.result i with
    | some g, none =>
      let (r, g') := (item i).exec draw g
      some { m with running := Function.update m.running j (some g'), result := Function.update m.result i (some r) }
    | _, _ => none
  | .finish j =>
    match m.running j with
    | some g => some { m with pool := m.pool.attach g, running := Function.update m.running j none }
    | none => none

/-- A sequence of events. -/
def steps (make : Nat → σ) (draw : σ → Nat → Nat × σ) (item : Nat → Prog α) (m : Machine σ α) : List Event → Option (Machine σ α)
  | [] => some m
  | e :: es => do
    let m' ← m.step make draw item e
    steps make draw item m' es

/-- The results of the items `0..n`, if all are there: the new elements of the vector. -/
def collected (m : Machine σ α) (n : Nat) (as : List α) : Prop :=
  as.length = n ∧ ∀ i, (h : i < as.length) → m.result i = some (.ok as[i])

end Machine

/-- `generate_new_population` (default) with the pool — `algorithms.rs:211-232`: which results are possible, whatever the threads do. -/
def PooledGenerate {I Mo U σ : Type} [Individual I] (M : EvoModel I Mo U) (env : NumEnv) (make : Nat → σ) (draw : σ → Nat → Nat × σ)
    (model : Mo) (repro : ReproParams U × Nat) (population : Population I) (offspring : List I) (pool : RngPool σ)
    (offspring' : List I) (pool' : RngPool σ) : Prop :=
  match repro.2 - offspring.length with
  | 0 => offspring' = offspring ∧ pool' = pool
  | 1 =>
    let (g, pool1) := pool.pull make
    ∃ x g', (M.breed env model population repro.1).exec draw g = (.ok x, g') ∧ offspring' = offspring ∧ pool' = pool1.attach g'
  | size => ∃ events m new, (Machine.init pool).steps make draw (fun _ => M.breed env model population repro.1) events = some m ∧
      m.collected size new ∧ (∀ j, m.running j = none) ∧ offspring' = offspring ++ new ∧ pool' = m.pool

end RG
