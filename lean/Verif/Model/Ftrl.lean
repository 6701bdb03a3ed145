/-
Model of the updates of the two remaining optimisers a name selects (edward/inferences/variational_inference.py:96-114):
`tf.train.FtrlOptimizer(lr)` and `tf.train.AdadeltaOptimizer(lr)` of TensorFlow 1 with dense gradients and their default arguments.

All parameters together are one vector; the optimisers work on each coordinate separately. Numbers are real; rounding is not modelled.
-/
import Verif.Model.NamedOptimizers

namespace Edward
variable {ι : Type} [Fintype ι]

/-- The parameters and the slots `accum` and `linear`. -/
structure FtrlState (ι : Type) [Fintype ι] where
  x : EuclideanSpace ℝ ι
  acc : ι → ℝ
  linear : ι → ℝ

/-- `ApplyFtrl` with `learning_rate_power=-0.5` and no regularisation: `new_accum = accum + grad²;
linear += grad - (sqrt(new_accum) - sqrt(accum)) / lr * var; var = -linear / (sqrt(new_accum) / lr); accum = new_accum`. -/
noncomputable def ftrlStep (lr : ℝ) (g : EuclideanSpace ℝ ι) (s : FtrlState ι) : FtrlState ι :=
  let acc i := s.acc i + g i ^ 2
  let linear i := s.linear i + g i - (√(acc i) - √(s.acc i)) / lr * s.x i
  ⟨WithLp.toLp 2 fun i => -linear i / (√(acc i) / lr), acc, linear⟩

/-- The state after `n` updates; `initial_accumulator_value=0.1`, the slot `linear` starts at zero. -/
noncomputable def ftrlRun (lr : ℕ → ℝ) (G : EuclideanSpace ℝ ι → EuclideanSpace ℝ ι) (x : EuclideanSpace ℝ ι) : ℕ → FtrlState ι
  | 0 => ⟨x, fun _ => 0.1, fun _ => 0⟩
  | n + 1 => ftrlStep (lr n) (G (ftrlRun lr G x n).x) (ftrlRun lr G x n)

/-- The parameters and the slots `accum` and `accum_update`. -/
structure AdadeltaState (ι : Type) [Fintype ι] where
  x : EuclideanSpace ℝ ι
  acc : ι → ℝ
  delta : ι → ℝ

/-- `ApplyAdadelta` with `rho=0.95` and `epsilon=1e-8`: `accum = rho * accum + (1 - rho) * grad²;
update = sqrt(accum_update + epsilon) / sqrt(accum + epsilon) * grad; var -= lr * update;
accum_update = rho * accum_update + (1 - rho) * update²`. -/
noncomputable def adadeltaStep (lr : ℝ) (g : EuclideanSpace ℝ ι) (s : AdadeltaState ι) : AdadeltaState ι :=
  let acc i := 0.95 * s.acc i + (1 - 0.95) * g i ^ 2
  let update i := √(s.delta i + 1e-8) / √(acc i + 1e-8) * g i
  ⟨WithLp.toLp 2 fun i => s.x i - lr * update i, acc, fun i => 0.95 * s.delta i + (1 - 0.95) * update i ^ 2⟩

/-- The state after `n` updates; the slots start at zero. -/
noncomputable def adadeltaRun (lr : ℕ → ℝ) (G : EuclideanSpace ℝ ι → EuclideanSpace ℝ ι) (x : EuclideanSpace ℝ ι) : ℕ → AdadeltaState ι
  | 0 => ⟨x, fun _ => 0, fun _ => 0⟩
  | n + 1 => adadeltaStep (lr n) (G (adadeltaRun lr G x n).x) (adadeltaRun lr G x n)

end Edward
