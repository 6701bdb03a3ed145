/-
Model of the updates of three more of the optimisers a name selects (edward/inferences/variational_inference.py:96-114):
`tf.train.AdagradOptimizer(lr)`, `tf.train.MomentumOptimizer(lr, 0.9)` and `tf.train.RMSPropOptimizer(lr)` of TensorFlow 1
with dense gradients and their default arguments.

All parameters together are one vector; the optimisers work on each coordinate separately. The gradient is a function `G` of the
parameters, as `MAP` builds it. Numbers are real; rounding is not modelled.
-/
import Mathlib.Analysis.InnerProductSpace.PiL2
import Mathlib.Analysis.Calculus.Gradient.Basic
import Verif.Model.Descent

namespace Edward
variable {ι : Type} [Fintype ι]

/-- The parameters and the slot `accumulator`. -/
structure AdagradState (ι : Type) [Fintype ι] where
  x : EuclideanSpace ℝ ι
  acc : ι → ℝ

/-- `ApplyAdagrad`: `accum += grad²; var -= lr * grad / sqrt(accum)`. -/
noncomputable def adagradStep (lr : ℝ) (g : EuclideanSpace ℝ ι) (s : AdagradState ι) : AdagradState ι :=
  let acc i := s.acc i + g i ^ 2
  ⟨WithLp.toLp 2 fun i => s.x i - lr * g i / √(acc i), acc⟩

/-- The state after `n` updates; `initial_accumulator_value=0.1`. -/
noncomputable def adagradRun (lr : ℕ → ℝ) (G : EuclideanSpace ℝ ι → EuclideanSpace ℝ ι) (x : EuclideanSpace ℝ ι) : ℕ → AdagradState ι
  | 0 => ⟨x, fun _ => 0.1⟩
  | n + 1 => adagradStep (lr n) (G (adagradRun lr G x n).x) (adagradRun lr G x n)

/-- The parameters and the slot `momentum`. -/
structure MomentumState (E : Type) where
  x : E
  acc : E

/-- `ApplyMomentum`: `accum = accum * 0.9 + grad; var -= lr * accum`. -/
noncomputable def momentumStep {E : Type} [AddCommGroup E] [Module ℝ E] (lr : ℝ) (g : E) (s : MomentumState E) : MomentumState E :=
  let acc := (0.9 : ℝ) • s.acc + g
  ⟨s.x - lr • acc, acc⟩

/-- The state after `n` updates; the slot starts at zero. -/
noncomputable def momentumRun {E : Type} [AddCommGroup E] [Module ℝ E] (lr : ℕ → ℝ) (G : E → E) (x : E) : ℕ → MomentumState E
  | 0 => ⟨x, 0⟩
  | n + 1 => momentumStep (lr n) (G (momentumRun lr G x n).x) (momentumRun lr G x n)

/-- The parameters and the slot `rms`. -/
structure RmsState (ι : Type) [Fintype ι] where
  x : EuclideanSpace ℝ ι
  rms : ι → ℝ

/-- `ApplyRMSProp` with `decay=0.9`, `momentum=0` and `epsilon=1e-10`:
`ms += (grad² - ms) * (1 - 0.9); var -= lr * grad / sqrt(ms + 1e-10)`. -/
noncomputable def rmsStep (lr : ℝ) (g : EuclideanSpace ℝ ι) (s : RmsState ι) : RmsState ι :=
  let rms i := s.rms i + (g i ^ 2 - s.rms i) * (1 - 0.9)
  ⟨WithLp.toLp 2 fun i => s.x i - lr * g i / √(rms i + 1e-10), rms⟩

/-- The state after `n` updates; the slot starts at one. -/
noncomputable def rmsRun (lr : ℕ → ℝ) (G : EuclideanSpace ℝ ι → EuclideanSpace ℝ ι) (x : EuclideanSpace ℝ ι) : ℕ → RmsState ι
  | 0 => ⟨x, fun _ => 1⟩
  | n + 1 => rmsStep (lr n) (G (rmsRun lr G x n).x) (rmsRun lr G x n)

end Edward
