/-
Model of the choice of optimiser: edward/inferences/variational_inference.py:83-121 and
edward/inferences/gan_inference.py:219-255 (`_build_optimizer`, the same code), of the
learning rate made by `tf.train.exponential_decay`, and of one coordinate of the updates
of `tf.train.AdamOptimizer` and `tf.train.GradientDescentOptimizer` (TensorFlow 1, dense
gradients).

A variable's gradients are an arbitrary sequence: nothing is assumed about the loss, the
draws or the other coordinates. Numbers are real; rounding is not modelled.
-/
import Mathlib.Analysis.SpecialFunctions.Pow.Real
import Verif.Model.Metrics

namespace Edward

/-- The argument `optimizer`. -/
inductive OptArg
  | none
  /-- a string -/
  | name (s : String)
  /-- a `tf.train.Optimizer` -/
  | object (id : ℕ)
  | other

/-- The argument `global_step`. -/
inductive StepArg
  | none
  /-- a `tf.Variable` with its initial value -/
  | variable (start : ℕ)
  /-- anything else, such as a tensor -/
  | other

/-- The classes of TensorFlow constructed. -/
inductive OptClass
  | gradientDescent
  | adadelta
  | adagrad
  | momentum
  | adam
  | ftrl
  | rmsprop
  deriving DecidableEq

/-- A learning rate: `0.01`, or `exponential_decay(0.1, global_step, 100, 0.9, staircase=True)`
for a counter with this initial value. -/
inductive LearningRate
  | fixed
  | decay (start : ℕ)
  deriving DecidableEq

/-- The optimiser used: one constructed with a learning rate, or the caller's. -/
inductive Opt
  | built (c : OptClass) (lr : LearningRate)
  | given (id : ℕ)
  deriving DecidableEq

/-- The counter passed to `apply_gradients`. -/
inductive StepUse
  | none
  | fresh
  | given
  deriving DecidableEq

/-- `if optimizer is None and global_step is None: global_step = tf.Variable(0, ...)`
(variational_inference.py:83-85, gan_inference.py:220-222): the counter from there on. -/
def stepFor (optimizer : OptArg) (globalStep : StepArg) : StepArg × StepUse :=
  match globalStep with
  | .none => match optimizer with
    | .none => (.variable 0, .fresh)
    | _ => (.none, .none)
  | g => (g, .given)

/-- `if isinstance(global_step, tf.Variable): ... else: learning_rate = 0.01`
(variational_inference.py:87-93, gan_inference.py:224-230) -/
def rateFor : StepArg → LearningRate
  | .variable start => .decay start
  | _ => .fixed

/-- variational_inference.py:83-121, gan_inference.py:219-255 -/
def buildOptimizer (optimizer : OptArg) (globalStep : StepArg) : Except PyErr (Opt × StepUse) :=
  let lr := rateFor (stepFor optimizer globalStep).1
  let use := (stepFor optimizer globalStep).2
  match optimizer with
  | .none => .ok (.built .adam lr, use)
  | .name s =>
    if s = "gradientdescent" then .ok (.built .gradientDescent lr, use)
    else if s = "adadelta" then .ok (.built .adadelta lr, use)
    else if s = "adagrad" then .ok (.built .adagrad lr, use)
    else if s = "momentum" then .ok (.built .momentum lr, use)
    else if s = "adam" then .ok (.built .adam lr, use)
    else if s = "ftrl" then .ok (.built .ftrl lr, use)
    else if s = "rmsprop" then .ok (.built .rmsprop lr, use)
    else .error .valueError
  | .object id => .ok (.given id, use)
  | .other => .error .typeError

/-- `tf.train.exponential_decay(rate, step, 100, 0.9, staircase=True)` -/
noncomputable def exponentialDecay (rate : ℝ) (step : ℕ) : ℝ := rate * (0.9 : ℝ) ^ (step / 100)

/-- The learning rate of the update number `t` (from 0): the counter has been incremented once by each
earlier update. -/
noncomputable def LearningRate.at : LearningRate → ℕ → ℝ
  | .fixed, _ => 0.01
  | .decay start, t => exponentialDecay 0.1 (start + t)

/-- One coordinate of a variable with its slots `m` and `v`. -/
structure AdamState where
  x : ℝ
  m : ℝ
  v : ℝ

/-- `ApplyAdam` with `beta1 = 0.9`, `beta2 = 0.999`, `epsilon = 1e-8`, in update number `t`, when `beta1_power` and
`beta2_power` are `0.9 ^ (t + 1)` and `0.999 ^ (t + 1)`. -/
noncomputable def adamStep (lr : ℝ) (t : ℕ) (g : ℝ) (s : AdamState) : AdamState :=
  let m := s.m + (g - s.m) * (1 - 0.9)
  let v := s.v + (g ^ 2 - s.v) * (1 - 0.999)
  let rate := lr * √(1 - 0.999 ^ (t + 1)) / (1 - 0.9 ^ (t + 1))
  ⟨s.x - rate * m / (√v + 1e-8), m, v⟩

/-- The state after `n` updates with gradients `g 0, g 1, ...`; the slots start at zero. -/
noncomputable def adamRun (lr : ℕ → ℝ) (g : ℕ → ℝ) (x : ℝ) : ℕ → AdamState
  | 0 => ⟨x, 0, 0⟩
  | n + 1 => adamStep (lr n) n (g n) (adamRun lr g x n)

/-- `n` updates of `GradientDescentOptimizer`. -/
noncomputable def descentRun (lr : ℕ → ℝ) (g : ℕ → ℝ) (x : ℝ) : ℕ → ℝ
  | 0 => x
  | n + 1 => descentRun lr g x n - lr n * g n

/-- The updates of Adam when the gradient is a function of the coordinate itself. -/
noncomputable def adamMinimise (lr : ℕ → ℝ) (grad : ℝ → ℝ) (x : ℝ) : ℕ → AdamState
  | 0 => ⟨x, 0, 0⟩
  | n + 1 => adamStep (lr n) n (grad (adamMinimise lr grad x n).x) (adamMinimise lr grad x n)

end Edward
