/-
Model of seeds: `set_seed` (edward/util/graphs.py:59-73), the seeds that TensorFlow gives to random operations, and what `copy` does with
them (edward/util/random_variables.py:334-347).

A program is a list of commands that build the graph. Creating a random variable is a number of commands: operations for the
parameters, and random operations without a seed of their own (edward/models/random_variable.py:108); its copy is created in the same way
(random_variables.py:296-308). A copy of a tensor copies the operation. NumPy is represented by the last seed it was given. Seeds are natural
numbers; NumPy takes those below 2^32. Names of operations are abstract but for `keras_learning_phase`.
-/
import Mathlib.Data.List.Basic
import Mathlib.Data.Nat.Notation

namespace Edward.Seeds

/-- The attributes `seed` and `seed2` of a random operation. Both zero means that TensorFlow chooses a seed at random. -/
structure RandomOp where
  seed : ℕ
  seed2 : ℕ
  deriving DecidableEq

structure St where
  /-- the last seed given to `np.random.seed` -/
  numpy : Option ℕ
  /-- `graph.seed` -/
  graphSeed : Option ℕ
  /-- the names of the operations, latest first; their number is `graph._last_id` -/
  names : List String
  /-- the random operations, latest first -/
  random : List RandomOp

inductive Outcome | ok | runtimeError | valueError | indexError
  deriving DecidableEq

inductive Cmd
  /-- `ed.set_seed(x)` -/
  | setSeed (x : ℕ)
  /-- `tf.set_random_seed(x)` -/
  | tfSeed (x : ℕ)
  /-- an operation that is not random -/
  | op (name : String)
  /-- a random operation, with the argument `seed` -/
  | random (seed : Option ℕ)
  /-- `ed.copy` of the random operation with this number -/
  | copy (i : ℕ)

/-- `random_seed._MAXINT32` of TensorFlow -/
def maxInt32 : ℕ := 2 ^ 31 - 1

/-- `random_seed.DEFAULT_GRAPH_SEED` of TensorFlow -/
def defaultGraphSeed : ℕ := 87654321

/-- `tf.get_seed(op_seed)` of TensorFlow: seeds are truncated, and (0, 0) is avoided. -/
def getSeed (s : St) (opSeed : Option ℕ) : Option (ℕ × ℕ) :=
  let seeds := match s.graphSeed, opSeed with
    | some g, some o => some (g % maxInt32, o % maxInt32)
    | some g, none => some (g % maxInt32, s.names.length % maxInt32)
    | none, some o => some (defaultGraphSeed, o % maxInt32)
    | none, none => none
  if seeds = some (0, 0) then some (0, maxInt32) else seeds

/-- One command. An exception leaves the state as it was when it was raised. -/
def step (s : St) : Cmd → St × Outcome
  | .setSeed x =>
    -- graphs.py:66-70
    if s.names.length > 0 ∧ s.names ≠ ["keras_learning_phase"] then (s, .runtimeError)
    -- graphs.py:72-73
    else if 2 ^ 32 ≤ x then (s, .valueError)
    else ({ s with numpy := some x, graphSeed := some x }, .ok)
  | .tfSeed x => ({ s with graphSeed := some x }, .ok)
  | .op name => ({ s with names := name :: s.names }, .ok)
  | .random seed =>
    let (a, b) := (getSeed s seed).getD (0, 0)
    ({ s with names := "random" :: s.names, random := ⟨a, b⟩ :: s.random }, .ok)
  | .copy i =>
    match s.random.reverse[i]? with
    | none => (s, .indexError)
    | some r =>
      -- random_variables.py:346-347
      let r' := match getSeed s none with
        | some (_, seed2) => { r with seed2 := seed2 }
        | none => r
      ({ s with names := "copied/random" :: s.names, random := r' :: s.random }, .ok)

/-- A program stops at the first exception. -/
def exec (s : St) : List Cmd → St × Outcome
  | [] => (s, .ok)
  | c :: cs =>
    match step s c with
    | (s', .ok) => exec s' cs
    | (s', e) => (s', e)

/-- A new graph. -/
def fresh (numpy : Option ℕ) : St := ⟨numpy, none, [], []⟩

/-- What the operation draws, in the order of executions: `draws (seed, seed2)` is the generator of TensorFlow, `entropy` is the source of the
operations without seeds. -/
def drawsOf {Ω : Type} (gen : ℕ × ℕ → ℕ → Ω) (entropy : ℕ → ℕ → Ω) (i : ℕ) (r : RandomOp) : ℕ → Ω :=
  if r.seed = 0 ∧ r.seed2 = 0 then entropy i else gen (r.seed, r.seed2)

end Edward.Seeds
