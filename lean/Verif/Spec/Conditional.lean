/-
Specification for C143: densities after integrating out a variable `beta` with finitely many values.
-/
import Mathlib.MeasureTheory.Integral.Bochner.Basic
import Mathlib.MeasureTheory.Measure.Lebesgue.Basic
import Mathlib.Analysis.SpecialFunctions.Log.Basic

namespace Edward.Spec
open MeasureTheory

/-- `p(x, z)`. -/
def marginalOf {S B : Type} [Fintype B] (J : S → B → ℝ) (z : S) : ℝ := ∑ b, J z b

/-- `p(beta | x, z)`. -/
noncomputable def conditionalOf {S B : Type} [Fintype B] (J : S → B → ℝ) (z : S) (b : B) : ℝ := J z b / ∑ b', J z b'

/-- `p(beta | x)`; `μ` is the reference measure of `z`. -/
noncomputable def posteriorOf {S B : Type} [Fintype B] [MeasurableSpace S] (μ : Measure S) (J : S → B → ℝ) (b : B) : ℝ :=
  (∫ z, J z b ∂μ) / ∑ b', ∫ z, J z b' ∂μ

/-- `E_qbeta[p(x, z, beta)]`, as a function of `z`; `R` is the law of `qbeta`. -/
noncomputable def averagedJoint {S B : Type} [MeasurableSpace B] (R : Measure B) (J : S × B → ℝ) (z : S) : ℝ := ∫ b, J (z, b) ∂R

end Edward.Spec
