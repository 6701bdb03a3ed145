/-
Model of the moments that the constructor of `ParamMixture` prepares (edward/models/param_mixture.py:110-139), as tensors with the
broadcasting of TensorFlow, and of `_mean` and `_variance` (243-259).
-/
import Verif.Model.MixtureArgs

namespace Edward

/-- `tf.reduce_sum(comp * weights, 0)` with the weights expanded by one axis per axis of the event (param_mixture.py:121-131). -/
noncomputable def weightedSum (eventRank : ℕ) (weights comp : NDArr ℝ) : Except PyErr (NDArr ℝ) :=
  match broadcastMul comp (expandTo weights (weights.shape.length + eventRank)) with
  | .error e => .error e
  | .ok prod => reduceSumAxis prod 0

/-- What `mean()` and `variance()` of the mixture return (param_mixture.py:110-139, 243-259); `none` if they raise
NotImplementedError. `means` and `vars` are the tensors that the components return, `none` if they raise; both have the same shape. -/
noncomputable def mixtureMoments (eventRank : ℕ) (weights : NDArr ℝ) (means vars : Option (NDArr ℝ)) : Option (NDArr ℝ × NDArr ℝ) :=
  if weights.shape.length ≤ 1 then
    match means, vars with
    | some m, some v =>
      match weightedSum eventRank weights m, weightedSum eventRank weights ⟨m.shape, fun ix => m.get ix ^ 2 + v.get ix⟩ with
      | .ok mean, .ok meanSq => some (mean, ⟨mean.shape, fun ix => meanSq.get ix - mean.get ix ^ 2⟩)
      | _, _ => none
    | _, _ => none
  else none

end Edward
