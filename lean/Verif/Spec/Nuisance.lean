/-
Specification for C142: the posterior of the latent variables has the other variables integrated out.
-/
import Mathlib.Analysis.SpecialFunctions.Log.Basic

namespace Edward.Spec
variable {S W : Type}

/-- `p(x, z)`: the average over the other variables, which have the law `r`. -/
noncomputable def averaged [Fintype W] (r : W → ℝ) (logJ : S → W → ℝ) (z : S) : ℝ := ∑ w, r w * Real.exp (logJ z w)

/-- The geometric mean over the other variables. -/
noncomputable def geometric [Fintype W] (r : W → ℝ) (logJ : S → W → ℝ) (z : S) : ℝ := Real.exp (∑ w, r w * logJ z w)

/-- The distribution proportional to `f`. -/
noncomputable def normalised [Fintype S] (f : S → ℝ) (z : S) : ℝ := f z / ∑ z', f z'

end Edward.Spec
