/-
Model of `Inference.run`, `update`, `print_progress`, `finalize`
(edward/inferences/inference.py:97-154, 204-213, 287-338) and of the `reset` ops.

`run` is a sequence of calls, any of which may raise: `fail k` tells whether the
`k`-th call does. The state records the counter `t` (`none` while the TensorFlow
variable is uninitialised) and the log of completed calls.
-/
import Mathlib.Data.List.Infix

namespace Edward

/-- Completed calls. -/
inductive Ev where
  | initialize
  | initVars
  | startThreads
  | update (t : Nat)
  | report (t : Nat) (shown : Bool)
  | closeWriter
  | requestStop
  | joinThreads
  deriving DecidableEq

structure RunState where
  t : Option Nat
  log : List Ev
  calls : Nat
  deriving DecidableEq

/-- Arguments that matter to `run`. `initList` is the argument `variables`: `none` is the default,
`some b` an explicit list, `b` telling whether it contains the
counter `t` of this inference. -/
structure RunConfig where
  nIter : Nat
  nPrint : Int
  useCoordinator : Bool
  logging : Bool
  initList : Option Bool

abbrev RunM := RunState → Except RunState RunState

def andThen (f g : RunM) : RunM := fun s =>
  match f s with
  | .ok s' => g s'
  | .error s' => .error s'

/-- A call which raises or completes with the effect `f` on `t`. -/
def call (fail : Nat → Bool) (e : Ev) (f : Option Nat → Option Nat) : RunM := fun s =>
  if fail s.calls then .error { s with calls := s.calls + 1 }
  else .ok { t := f s.t, log := s.log ++ [e], calls := s.calls + 1 }

/-- Is progress shown at `t` (inference.py:329-332, monte_carlo.py:155-158)? -/
def showsProgress (nPrint : Int) (t : Nat) : Bool :=
  nPrint != 0 && (t == 1 || (t : Int) % nPrint == 0)

/-- The default `n_print` (inference.py:205-208): `int(n_iter / 100)`. -/
def defaultNPrint (nIter : Nat) : Int := (nIter / 100 : Nat)

/-- `info_dict = self.update(); self.print_progress(info_dict)`
(inference.py:145-147). Updating with an uninitialised `t` raises. -/
def iteration (c : RunConfig) (fail : Nat → Bool) : RunM := fun s =>
  match s.t with
  | none => .error { s with calls := s.calls + 1 }
  | some k =>
    andThen (call fail (.update (k + 1)) (fun _ => some (k + 1)))
      (call fail (.report (k + 1) (showsProgress c.nPrint (k + 1))) id) s

/-- `for _ in range(self.n_iter)`. -/
def iterate (c : RunConfig) (fail : Nat → Bool) : Nat → RunM
  | 0 => fun s => .ok s
  | n + 1 => andThen (iteration c fail) (iterate c fail n)

def skip : RunM := fun s => .ok s

/-- `run` (inference.py:97-154). `initialize` creates a new, uninitialised `t`;
`init.run` initialises all variables or the given ones. -/
def run (c : RunConfig) (fail : Nat → Bool) : RunM :=
  andThen (call fail .initialize (fun _ => none)) <|
  andThen (call fail .initVars (fun t =>
    match c.initList with
    | none => some 0
    | some true => some 0
    | some false => t)) <|
  andThen (if c.useCoordinator then call fail .startThreads id else skip) <|
  andThen (iterate c fail c.nIter) <|
  andThen (if c.logging then call fail .closeWriter id else skip) <|
  (if c.useCoordinator then
    andThen (call fail .requestStop id) (call fail .joinThreads id)
  else skip)

def runStart : RunState := { t := none, log := [], calls := 0 }

/-! ### Reset -/

/-- The kinds of algorithms by their internal variables. `mc`: MetropolisHastings,
HMC, SGLD, Gibbs, ReplicaExchangeMC; `sghmc` adds velocities; `vi`: subclasses of
`VariationalInference`; `gan`: `GANInference` and its subclasses. -/
inductive AlgKind where
  | mc
  | sghmc (velocities : List String)
  | vi (scope : String) (slots : List String) (globalStep : Option String)
  | gan (slots : List String) (globalSteps : List String)

/-- Internal variables which the updates modify. The iteration counter is called
`iteration`, the acceptance counter `n_accept` (inference.py:211,
monte_carlo.py:100, sghmc.py:54-55, variational_inference.py:85,118-121,
gan_inference.py:101-107). A `global_step` passed by the user belongs to the user;
`globalStep` is the one created by default. -/
def AlgKind.own : AlgKind → List String
  | .mc => ["iteration", "n_accept"]
  | .sghmc vs => ["iteration", "n_accept"] ++ vs
  | .vi _ slots gs => "iteration" :: slots ++ gs.toList
  | .gan slots gs => "iteration" :: slots ++ gs

/-- `tf.get_collection(key, scope=s)` keeps the items whose name matches the
regular expression `s` at its start, i.e. (for plain `s`) those with prefix `s`. -/
def inScope (scope : String) (name : String) : Bool := scope.toList.isPrefixOf name.toList

/-- Variables initialised by the ops in `self.reset` (inference.py:285,
monte_carlo.py:104, variational_inference.py:130-131). `globals` are the names of
all global variables of the graph. -/
def AlgKind.resets (globals : List String) : AlgKind → List String
  | .mc => ["iteration", "n_accept"]
  | .sghmc _ => ["iteration", "n_accept"]
  | .vi scope _ _ => "iteration" :: globals.filter (inScope scope)
  | .gan _ _ => ["iteration"]

/-- `sess.run(inference.reset)` on a store of variables. -/
def reset {Val : Type} (k : AlgKind) (globals : List String) (init : String → Val)
    (s : String → Val) : String → Val :=
  fun n => if n ∈ k.resets globals then init n else s n

end Edward
