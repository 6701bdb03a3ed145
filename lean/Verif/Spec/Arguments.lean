/- The documented parameters of the inference algorithms, and Python's rule for calls. -/
import Verif.Model.Arguments

namespace Edward.Arguments.Spec

/-- The parameters documented in `Inference.initialize`. -/
def general : List String := ["n_iter", "n_print", "scale", "auto_transform", "logdir", "log_timestamp", "log_vars", "debug"]

/-- The parameters documented for each class, in order. -/
def parameters : Cls → List String
  | .biGAN | .gan => ["optimizer", "optimizer_d", "global_step", "global_step_d", "var_list"] ++ general
  | .wgan => ["penalty", "clip", "optimizer", "optimizer_d", "global_step", "global_step_d", "var_list"] ++ general
  | .implicitKLqp => ["ratio_loss", "optimizer", "optimizer_d", "global_step", "global_step_d", "var_list"] ++ general
  | .klqp | .reparamKLKLqp | .scoreKLKLqp =>
    ["n_samples", "kl_scaling", "optimizer", "var_list", "use_prettytensor", "global_step"] ++ general
  | .klpq | .reparamKLqp | .reparamEntropyKLqp | .scoreKLqp | .scoreEntropyKLqp | .scoreRBKLqp =>
    ["n_samples", "optimizer", "var_list", "use_prettytensor", "global_step"] ++ general
  | .laplace | .map => ["optimizer", "var_list", "use_prettytensor", "global_step"] ++ general
  | .wakeSleep => ["n_samples", "phase_q", "optimizer", "var_list", "use_prettytensor", "global_step"] ++ general
  | .gibbs => "scan_order" :: general
  | .hmc => ["step_size", "n_steps"] ++ general
  | .metropolisHastings | .replicaExchange => general
  | .sgld => "step_size" :: general
  | .sghmc => ["step_size", "friction"] ++ general

/-- The defaults, the same in all classes. -/
def defaultOf (p : String) : String :=
  if p = "n_iter" then "1000"
  else if p = "auto_transform" ∨ p = "log_timestamp" ∨ p = "use_coordinator" then "True"
  else if p = "debug" ∨ p = "use_prettytensor" then "False"
  else if p = "n_samples" then "1"
  else if p = "step_size" then "0.25"
  else if p = "n_steps" then "2"
  else if p = "friction" then "0.1"
  else if p = "penalty" then "10.0"
  else if p = "ratio_loss" then "'log'"
  else if p = "phase_q" then "'sleep'"
  else if p = "scan_order" then "'random'"
  else "None"

/-- The classes that sample. -/
def Samples : Cls → Prop
  | .gibbs | .hmc | .metropolisHastings | .replicaExchange | .sgld | .sghmc => True
  | _ => False

/-- The classes that sample without a gradient. -/
def Untransformed : Cls → Prop
  | .gibbs | .metropolisHastings | .replicaExchange => True
  | _ => False

/-- The parameters that a class which samples sets itself. -/
def fixedOf {V : Type} : Cls → Kw V
  | .gibbs | .metropolisHastings | .replicaExchange => [("auto_transform", .off), ("n_iter", .rows)]
  | _ => [("n_iter", .rows)]

/-- A call with `n` positional arguments and these keywords fits the parameters: not too many arguments, no unknown keyword, no
parameter given twice. -/
def Fits (params : List String) (n : ℕ) (keys : List String) : Prop :=
  n ≤ params.length ∧ (∀ k ∈ keys, k ∈ params) ∧ ∀ k ∈ params.take n, k ∉ keys

/-- A call with these arguments does what Python and the documentation say, but for the parameters in `fixed`, which have a value of their own:
it raises TypeError exactly when it does not fit (or fills one of `fixed` by position); otherwise every parameter has a value, in order; a
positional argument, a keyword and a default reach the parameter they belong to. -/
def Obeys {V : Type} (params : List String) (fixed : Kw V) (args : List V) (kwargs : List (String × V)) : Except PyErr (Kw V) → Prop
  | .error e => e = .typeError ∧
      ¬ (Fits params args.length (kwargs.map Prod.fst) ∧ ∀ k ∈ params.take args.length, k ∉ fixed.map Prod.fst)
  | .ok b => (Fits params args.length (kwargs.map Prod.fst) ∧ ∀ k ∈ params.take args.length, k ∉ fixed.map Prod.fst) ∧
      b.map Prod.fst = params ∧
      (∀ k v, fixed.lookup k = some v → b.lookup k = some v) ∧
      (∀ (i : ℕ) k v, params[i]? = some k → args[i]? = some v → b.lookup k = some (.given v)) ∧
      (∀ k v, kwargs.lookup k = some v → k ∉ fixed.map Prod.fst → b.lookup k = some (.given v)) ∧
      ∀ (i : ℕ) k, params[i]? = some k → args.length ≤ i → k ∉ kwargs.map Prod.fst → k ∉ fixed.map Prod.fst →
        b.lookup k = some (.default (defaultOf k))

end Edward.Arguments.Spec
