/-
Model of `ed.evaluate`'s dispatch (edward/criticisms/evaluate.py:100-231) and of
`ed.ppc` (edward/criticisms/ppc.py:81-121).
-/
import Verif.Model.Metrics

namespace Edward

/-- A metric: a string, a callable, or something else. -/
inductive BaseMetric (F : Type)
  | name (s : String)
  | call (f : F)
  | other

/-- An element of the `metrics` list: a metric, or a pair of a metric and a dictionary of
options (lines 167-170). -/
inductive MetricItem (F P : Type)
  | plain (m : BaseMetric F)
  | pair (m : BaseMetric F) (params : P)

/-- The `metrics` argument. -/
inductive MetricsArg (F P : Type)
  | str (s : String)
  | callable (f : F)
  | list (l : List (MetricItem F P))
  | tuple (m : BaseMetric F) (params : P)
  | other

/-- The branches of lines 179-222. -/
inductive MetricKind
  | binaryAccuracy | categoricalAccuracy | sparseCategoricalAccuracy
  | binaryCrossentropy | categoricalCrossentropy | sparseCategoricalCrossentropy
  | multinomialAccuracy | klDivergence | hinge | squaredHinge
  | mse | mae | mape | msle | poisson | cosine | logLik
  deriving DecidableEq

/-- Lines 171-177: `'accuracy'` and `'crossentropy'` are resolved by the largest
observation (`small`: at most one). -/
def resolveName (small : Bool) (s : String) : String :=
  if s = "accuracy" ∨ s = "crossentropy" then
    if small then "binary_" ++ s else "sparse_categorical_" ++ s
  else s

/-- Lines 179-222. -/
def metricKind (s : String) : Option MetricKind :=
  if s = "binary_accuracy" then some .binaryAccuracy
  else if s = "categorical_accuracy" then some .categoricalAccuracy
  else if s = "sparse_categorical_accuracy" then some .sparseCategoricalAccuracy
  else if s = "log_loss" ∨ s = "binary_crossentropy" then some .binaryCrossentropy
  else if s = "categorical_crossentropy" then some .categoricalCrossentropy
  else if s = "sparse_categorical_crossentropy" then some .sparseCategoricalCrossentropy
  else if s = "multinomial_accuracy" then some .multinomialAccuracy
  else if s = "kl_divergence" then some .klDivergence
  else if s = "hinge" then some .hinge
  else if s = "squared_hinge" then some .squaredHinge
  else if s = "mse" ∨ s = "MSE" ∨ s = "mean_squared_error" then some .mse
  else if s = "mae" ∨ s = "MAE" ∨ s = "mean_absolute_error" then some .mae
  else if s = "mape" ∨ s = "MAPE" ∨ s = "mean_absolute_percentage_error" then some .mape
  else if s = "msle" ∨ s = "MSLE" ∨ s = "mean_squared_logarithmic_error" then some .msle
  else if s = "poisson" then some .poisson
  else if s = "cosine" ∨ s = "cosine_proximity" then some .cosine
  else if s = "log_lik" ∨ s = "log_likelihood" then some .logLik
  else none

/-- What the metrics compute, abstractly: `builtin` and `custom` may raise (for instance
for options they do not accept). `small`: see `resolveName`; `discrete`: the output is
one of the discrete random variables of lines 132-133, so that `probs` is bound. -/
structure EvalEnv (F P V : Type) where
  small : Bool
  discrete : Bool
  noParams : P
  builtin : MetricKind → P → Except PyErr V
  custom : F → P → Except PyErr V

variable {F P V : Type}

/-- The body of the loop for one item, lines 167-226. -/
def evalItem (env : EvalEnv F P V) (item : MetricItem F P) : Except PyErr V :=
  let (m, params) := match item with
    | .pair m params => (m, params)
    | .plain m => (m, env.noParams)
  match m with
  | .name s =>
    match metricKind (resolveName env.small s) with
    | some .klDivergence =>
      if env.discrete then env.builtin .klDivergence params else .error .unboundLocalError
    | some k => env.builtin k params
    | none => .error .notImplementedError
  | .call f => env.custom f params
  | .other => .error .notImplementedError

/-- The loop, lines 165-226. -/
def evalLoop (env : EvalEnv F P V) : List (MetricItem F P) → List V → Except PyErr (List V)
  | [], acc => .ok acc
  | x :: xs, acc =>
    match evalItem env x with
    | .ok v => evalLoop env xs (acc ++ [v])
    | .error e => .error e

/-- The returned value. -/
inductive EvalResult (V : Type)
  | one (v : V)
  | many (l : List V)

/-- The keys of `data`: random variables or other tensors, and placeholders. -/
inductive DataKey
  | output
  | placeholder

/-- The `output_key` argument: absent, a random variable, or something else. -/
inductive OutputKey
  | absent
  | randomVariable
  | other

/-- Lines 101-106. -/
def metricsList : MetricsArg F P → Except PyErr (List (MetricItem F P))
  | .str s => .ok [.plain (.name s)]
  | .callable f => .ok [.plain (.call f)]
  | .list l => .ok l
  | .tuple _ _ => .error .typeError
  | .other => .error .typeError

/-- Lines 112-121; `keys` are the keys of `data`. -/
def checkOutputKey (keys : List DataKey) : OutputKey → Except PyErr Unit
  | .absent =>
    if (keys.filter (fun k => match k with | .output => true | .placeholder => false)).length = 1 then .ok ()
    else .error .keyError
  | .randomVariable => .ok ()
  | .other => .error .typeError

/-- Lines 228-231. -/
def evalReturn : List V → EvalResult V
  | [v] => .one v
  | vs => .many vs

/-- `evaluate`, lines 100-231. `dataOk` is the outcome of `check_data` (C46), `nInt`
whether `n_samples` is an int. -/
def evaluate (env : EvalEnv F P V) (metrics : MetricsArg F P) (dataOk : Except PyErr Unit) (nInt : Bool)
    (keys : List DataKey) (outputKey : OutputKey) : Except PyErr (EvalResult V) :=
  match metricsList metrics with
  | .error e => .error e
  | .ok items =>
    match dataOk with
    | .error e => .error e
    | .ok () =>
      if nInt = false then .error .typeError
      else
        match checkOutputKey keys outputKey with
        | .error e => .error e
        | .ok () => (evalLoop env items []).map evalReturn

/-! ### ppc -/

/-- `ed.ppc`, lines 106-121, for valid arguments. A draw `w : W` is the randomness of one
session run; `latent w` and `replicate w` are the values of `zrep` and `xrep` in it.
`draws k` is the randomness of the `k`-th session run; every `sess.run` uses the next
one. `np.stack` of an empty list raises ValueError. -/
def ppc {W X Z R : Type} (T : X → Z → R) (data : X) (latent : W → Z) (replicate : W → X) (n : ℕ)
    (draws : ℕ → W) : Except PyErr (List R × List R) :=
  let out := (List.range n).foldl (fun (st : ℕ × List R × List R) _ =>
    let (k, treps, ts) := st
    let treps := treps ++ [T (replicate (draws k)) (latent (draws k))]
    let ts := ts ++ [T data (latent (draws (k + 1)))]
    (k + 2, treps, ts)) (0, [], [])
  if n = 0 then .error .valueError else .ok out.2

end Edward
