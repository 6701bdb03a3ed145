/-
Model of `debug=True` (edward/inferences/inference.py:279-281, variational_inference.py:156-157, monte_carlo.py:142-143,
gan_inference.py:199-200): which tensors are checked for NaN and Inf, and when.

`tf.add_check_numerics_ops()` makes a check for every floating-point tensor that is in the graph when it is called
(`Inference.initialize`). The subclasses build the loss and its gradients, or the update, after
`super().initialize()` returns (variational_inference.py:51-68, monte_carlo.py:98-102, gan_inference.py:96-107). A run of
the session evaluates tensors at a state `s` of the variables and at draws `ω` of the random operations; two runs have
two draws. What TensorFlow needs fed, and checks of tensors under control flow, are not modelled.
-/
import Mathlib.Data.List.Basic
import Mathlib.Data.Nat.Notation

namespace Edward
variable {Op S Ω : Type}

/-- The floating-point tensors of the graph: those there when `Inference.initialize` ends, and those which the
subclass builds then. `finite op s ω`: the value of the tensor has neither NaN nor Inf. `next`: the variables after
running `self.train`. -/
structure DebugGraph (Op S Ω : Type) where
  before : List Op
  after : List Op
  finite : Op → S → Ω → Prop
  next : S → Ω → S

/-- `sess.run(self.op_check, feed_dict)` raises InvalidArgumentError. -/
def DebugGraph.checkRaises (g : DebugGraph Op S Ω) (s : S) (ω : Ω) : Prop := ∃ op ∈ g.before, ¬ g.finite op s ω

/-- One `update` with `debug=True` raises: the train op runs at the draws `ω`, then the checks run in the new state at
the draws `ω'`. -/
def DebugGraph.updateRaises (g : DebugGraph Op S Ω) (s : S) (ω ω' : Ω) : Prop := g.checkRaises (g.next s ω) ω'

/-- The states of a run, with draws `ωs n` in update `n`. -/
def DebugGraph.state (g : DebugGraph Op S Ω) (s : S) (ωs : ℕ → Ω) : ℕ → S
  | 0 => s
  | n + 1 => g.next (g.state s ωs n) (ωs n)

end Edward
