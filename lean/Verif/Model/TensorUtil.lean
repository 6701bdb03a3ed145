/-
Model of edward/util/tensorflow.py: `rbf` (48-101), `to_simplex` (104-150) and
`get_control_variate_coef` (153-188). Numbers are real.
-/
import Mathlib.Analysis.SpecialFunctions.Log.Basic
import Mathlib.Algebra.BigOperators.Fin
import Verif.Model.Metrics

namespace Edward

/-! ### rbf -/

/-- Lines 98-100, after the division by the lengthscale. -/
noncomputable def rbfScaled {N M D : Type} [Fintype D] (variance : ℝ) (X : N → D → ℝ) (X2 : M → D → ℝ)
    (Xs : N → ℝ) (X2s : M → ℝ) (i : N) (j : M) : ℝ :=
  let square := Xs i + X2s j - 2 * ∑ d, X i d * X2 j d
  variance * Real.exp (-square / 2)

/-- `rbf(X, X2, lengthscale, variance)`; a scalar lengthscale is a constant vector. The
assertions of lines 82-85 raise unless the parameters are positive. -/
noncomputable def rbf {N M D : Type} [Fintype D] (X : N → D → ℝ) (X2 : M → D → ℝ) (lengthscale : D → ℝ)
    (variance : ℝ) : Option (N → M → ℝ) :=
  open Classical in
  if (∀ d, 0 < lengthscale d) ∧ 0 < variance then
    let X := fun i d => X i d / lengthscale d
    let Xs := fun i => ∑ d, X i d ^ 2
    let X2 := fun i d => X2 i d / lengthscale d
    let X2s := fun i => ∑ d, X2 i d ^ 2
    some (rbfScaled variance X X2 Xs X2s)
  else none

/-- `rbf(X, lengthscale=..., variance=...)`: `X2 = None` (lines 90-92). -/
noncomputable def rbfSelf {N D : Type} [Fintype D] (X : N → D → ℝ) (lengthscale : D → ℝ)
    (variance : ℝ) : Option (N → N → ℝ) :=
  open Classical in
  if (∀ d, 0 < lengthscale d) ∧ 0 < variance then
    let X := fun i d => X i d / lengthscale d
    let Xs := fun i => ∑ d, X i d ^ 2
    some (rbfScaled variance X X Xs Xs)
  else none

/-! ### to_simplex -/

/-- `tf.sigmoid` -/
noncomputable def sigmoid (x : ℝ) : ℝ := 1 / (1 + Real.exp (-x))

/-- `tf.cumprod` -/
noncomputable def cumprod {n : ℕ} (x : Fin n → ℝ) (i : Fin n) : ℝ := ∏ j, if j ≤ i then x j else 1

/-- Lines 138-141: from `z` to the simplex. -/
noncomputable def stickBreak {n : ℕ} (z : Fin n → ℝ) (i : Fin (n + 1)) : ℝ :=
  let pil : Fin (n + 1) → ℝ := Fin.snoc z 1
  let piu : Fin (n + 1) → ℝ := Fin.cons 1 (fun j => 1 - z j)
  cumprod piu i * pil i

/-- `to_simplex` of a vector (lines 134-141); matrices are handled row by row by the same
code (lines 142-150). -/
noncomputable def toSimplex {n : ℕ} (x : Fin n → ℝ) : Fin (n + 1) → ℝ :=
  let eq : Fin n → ℝ := fun i => - Real.log ((n : ℝ) - (i : ℕ))
  stickBreak (fun i => sigmoid (eq i + x i))

/-! ### get_control_variate_coef -/

/-- Lines 178-188. -/
noncomputable def controlVariateCoef {n : ℕ} (f h : Fin n → ℝ) : ℝ :=
  let f_mu := reduceMean f
  let h_mu := reduceMean h
  let cov_fh := (∑ i, (f i - f_mu) * (h i - h_mu)) / ((n : ℝ) - 1)
  let var_h := (∑ i, (h i - h_mu) ^ 2) / ((n : ℝ) - 1)
  cov_fh / var_h

end Edward
