/-
Model of edward/inferences/laplace.py:64-153.

The Hessian of the loss at the mode is an argument (`tf.hessians`, line 121). Matrices are
real. `tf.cholesky` is modelled by its contract: the lower triangular matrix with positive
diagonal whose product with its transpose is the argument. Approximations without batch
dimension. A scale parameter is stored in one variable, possibly through a function `g`
(for instance `tf.nn.softplus`, as in the examples of the documentation):
`get_variables(qz.variance())[0]` is that variable.
-/
import Mathlib.LinearAlgebra.Matrix.NonsingularInverse
import Mathlib.Data.Real.Basic
import Verif.Model.Metrics

namespace Edward
variable {d : ℕ}

/-- Classes of approximation. -/
inductive QClass
  | normal
  | mvnDiag
  | mvnTriL
  | other
  deriving DecidableEq

/-- `Laplace.__init__` with a dictionary (laplace.py:96-102). -/
def laplaceInit (qs : List QClass) : Except PyErr Unit :=
  match qs with
  | [] => .ok ()
  | q :: qs =>
    match q with
    | .other => .error .typeError
    | _ => laplaceInit qs

/-- The contract of `tf.cholesky`. -/
structure IsCholesky (H L : Matrix (Fin d) (Fin d) ℝ) : Prop where
  lower : ∀ i j, i < j → L i j = 0
  diag_pos : ∀ i, 0 < L i i
  eq : L * L.transpose = H

/-- The value assigned to the scale variable of `Normal` and `MultivariateNormalDiag`
(laplace.py:121-123). -/
noncomputable def laplaceScaleDiag (H : Matrix (Fin d) (Fin d) ℝ) (i : Fin d) : ℝ := 1 / H i i

/-- The covariance of these approximations afterwards: `scale = g variable`, covariance
`diag(scale²)`. -/
noncomputable def laplaceCovDiag (g : ℝ → ℝ) (H : Matrix (Fin d) (Fin d) ℝ) : Matrix (Fin d) (Fin d) ℝ :=
  Matrix.diagonal fun i => g (laplaceScaleDiag H i) ^ 2

/-- The value assigned to the scale variable of `MultivariateNormalTriL`
(laplace.py:124-126). -/
noncomputable def laplaceScaleTriL (L : Matrix (Fin d) (Fin d) ℝ) : Matrix (Fin d) (Fin d) ℝ := L⁻¹

/-- The covariance afterwards: `scale_tril * scale_trilᵀ`. -/
noncomputable def laplaceCovTriL (L : Matrix (Fin d) (Fin d) ℝ) : Matrix (Fin d) (Fin d) ℝ :=
  laplaceScaleTriL L * (laplaceScaleTriL L).transpose

end Edward
