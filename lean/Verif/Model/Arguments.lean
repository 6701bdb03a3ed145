/-
Model of the passing of arguments from `run` (edward/inferences/inference.py:97-125) through the `initialize` methods of the
classes of inference algorithms to `Inference.initialize` (inference.py:157-159).

Each method is `initialize(self, p1=d1, ..., *args, **kwargs)`: it binds its own parameters, sets entries of `kwargs` in some
classes, and calls `super().initialize(*args, **kwargs)`. `Inference.initialize` has neither `*args` nor `**kwargs`. So a call is
a sequence of bindings and assignments; TensorFlow and the checks of values (such as `n_samples > 0`) are left out, and the values
are opaque.
-/
import Verif.Model.Metrics

namespace Edward.Arguments

/-- A value of a parameter: from the caller, the default written in the signature, or computed by `MonteCarlo.initialize`. -/
inductive Val (V : Type)
  | given (v : V)
  | default (text : String)
  /-- `np.amin` of the numbers of rows of the approximations (monte_carlo.py:96-97) -/
  | rows
  /-- `False` -/
  | off
  deriving DecidableEq

/-- A keyword dictionary. Python makes sure that no key occurs twice. -/
abbrev Kw (V : Type) := List (String × Val V)

/-- What happens on the way to `Inference.initialize`. -/
inductive Item (V : Type)
  /-- a parameter of a signature with its default -/
  | param (name dflt : String)
  /-- `kwargs[name] = v` -/
  | set (name : String) (v : Val V)

/-- `kwargs[k] = v` -/
def Kw.set {V : Type} (kw : Kw V) (k : String) (v : Val V) : Kw V := (k, v) :: kw.filter fun e => e.1 ≠ k

/-- Python's binding of arguments: positional arguments fill the parameters in order; a parameter given twice raises TypeError; the
others come from the dictionary or from the default. What is left over goes on to the next method; left-over arguments at the end
raise TypeError. -/
def bind {V : Type} : List (Item V) → List (Val V) → Kw V → Except PyErr (Kw V)
  | [], [], [] => .ok []
  | [], _, _ => .error .typeError
  | .set k v :: rest, args, kw => bind rest args (kw.set k v)
  | .param p _ :: rest, a :: args, kw =>
    match kw.lookup p with
    | some _ => .error .typeError
    | none => (bind rest args kw).map fun b => (p, a) :: b
  | .param p d :: rest, [], kw =>
    match kw.lookup p with
    | some v => (bind rest [] (kw.filter fun e => e.1 ≠ p)).map fun b => (p, v) :: b
    | none => (bind rest [] kw).map fun b => (p, .default d) :: b

/-- The classes of edward/inferences/__init__.py:28-55 that can be instantiated. -/
inductive Cls
  | biGAN | gan | wgan | implicitKLqp
  | klpq | klqp | reparamKLqp | reparamKLKLqp | reparamEntropyKLqp | scoreKLqp | scoreKLKLqp | scoreEntropyKLqp | scoreRBKLqp
  | laplace | map | wakeSleep
  | gibbs | hmc | metropolisHastings | replicaExchange | sgld | sghmc
  deriving DecidableEq

/-- inference.py:157-159 -/
def inferenceItems {V : Type} : List (Item V) :=
  [.param "n_iter" "1000", .param "n_print" "None", .param "scale" "None", .param "auto_transform" "True", .param "logdir" "None",
    .param "log_timestamp" "True", .param "log_vars" "None", .param "debug" "False"]

/-- variational_inference.py:29-30, 51 -/
def variationalItems {V : Type} : List (Item V) :=
  [.param "optimizer" "None", .param "var_list" "None", .param "use_prettytensor" "False", .param "global_step" "None"] ++ inferenceItems

/-- gan_inference.py:65-67, 95-96: calls the method of the grandparent -/
def ganItems {V : Type} : List (Item V) :=
  [.param "optimizer" "None", .param "optimizer_d" "None", .param "global_step" "None", .param "global_step_d" "None",
    .param "var_list" "None"] ++ inferenceItems

/-- monte_carlo.py:95-98 -/
def monteCarloItems {V : Type} : List (Item V) := .set "n_iter" .rows :: inferenceItems

/-- The `initialize` of each class. -/
def items {V : Type} : Cls → List (Item V)
  | .biGAN => ganItems
  | .gan => ganItems
  -- wgan_inference.py:44, 58
  | .wgan => [.param "penalty" "10.0", .param "clip" "None"] ++ ganItems
  -- implicit_klqp.py:86, 106
  | .implicitKLqp => .param "ratio_loss" "'log'" :: ganItems
  -- klpq.py:85, 98
  | .klpq => .param "n_samples" "1" :: variationalItems
  -- klqp.py:86, 113
  | .klqp => [.param "n_samples" "1", .param "kl_scaling" "None"] ++ variationalItems
  -- klqp.py:210, 223
  | .reparamKLqp => .param "n_samples" "1" :: variationalItems
  -- klqp.py:273, 300
  | .reparamKLKLqp => [.param "n_samples" "1", .param "kl_scaling" "None"] ++ variationalItems
  -- klqp.py:350, 363-364
  | .reparamEntropyKLqp => .param "n_samples" "1" :: variationalItems
  -- klqp.py:414, 427
  | .scoreKLqp => .param "n_samples" "1" :: variationalItems
  -- klqp.py:477, 503
  | .scoreKLKLqp => [.param "n_samples" "1", .param "kl_scaling" "None"] ++ variationalItems
  -- klqp.py:553, 566
  | .scoreEntropyKLqp => .param "n_samples" "1" :: variationalItems
  -- klqp.py:623, 636
  | .scoreRBKLqp => .param "n_samples" "1" :: variationalItems
  -- laplace.py:107, 115
  | .laplace => variationalItems
  | .map => variationalItems
  -- wake_sleep.py:61, 77
  | .wakeSleep => [.param "n_samples" "1", .param "phase_q" "'sleep'"] ++ variationalItems
  -- gibbs.py:54, 68-69
  | .gibbs => [.param "scan_order" "'random'", .set "auto_transform" .off] ++ monteCarloItems
  -- hmc.py:45, 59
  | .hmc => [.param "step_size" "0.25", .param "n_steps" "2"] ++ monteCarloItems
  -- metropolis_hastings.py:60-62
  | .metropolisHastings => .set "auto_transform" .off :: monteCarloItems
  -- replica_exchange_mc.py:74-76
  | .replicaExchange => .set "auto_transform" .off :: monteCarloItems
  -- sgld.py:43, 50
  | .sgld => .param "step_size" "0.25" :: monteCarloItems
  -- sghmc.py:43, 56
  | .sghmc => [.param "step_size" "0.25", .param "friction" "0.1"] ++ monteCarloItems

/-- `inference.initialize(*args, **kwargs)`: the values the parameters get. -/
def initCall {V : Type} (c : Cls) (args : List V) (kwargs : List (String × V)) : Except PyErr (Kw V) :=
  bind (items c) (args.map .given) (kwargs.map fun e => (e.1, .given e.2))

/-- `inference.run(*args, **kwargs)` (inference.py:97, 125): `run` has two parameters of its own. -/
def runCall {V : Type} (c : Cls) (args : List V) (kwargs : List (String × V)) : Except PyErr (Kw V) :=
  bind ([.param "variables" "None", .param "use_coordinator" "True"] ++ items c) (args.map .given) (kwargs.map fun e => (e.1, .given e.2))

end Edward.Arguments
