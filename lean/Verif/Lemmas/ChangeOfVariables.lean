/-
Change of variables for maps acting on each coordinate separately.
-/
import Mathlib.MeasureTheory.Function.Jacobian
import Mathlib.MeasureTheory.Measure.Lebesgue.Basic
import Mathlib.MeasureTheory.Constructions.Pi
import Mathlib.MeasureTheory.Measure.Haar.OfBasis
import Mathlib.Analysis.Calculus.FDeriv.Prod
import Mathlib.Analysis.Calculus.Deriv.Basic
import Mathlib.LinearAlgebra.Determinant
import Mathlib.LinearAlgebra.Matrix.ToLin
import Mathlib.Analysis.SpecialFunctions.Exp

namespace Edward

open MeasureTheory

variable {ι : Type*} [Fintype ι]

/-- The derivative of a coordinatewise map. -/
noncomputable def diagDeriv (a : ι → ℝ) : (ι → ℝ) →L[ℝ] (ι → ℝ) :=
  ContinuousLinearMap.pi fun i => a i • ContinuousLinearMap.proj i

theorem det_diagDeriv (a : ι → ℝ) : (diagDeriv a).det = ∏ i, a i := by
  classical
  have h : ((diagDeriv a : (ι → ℝ) →L[ℝ] (ι → ℝ)) : (ι → ℝ) →ₗ[ℝ] (ι → ℝ)) = Matrix.toLin' (Matrix.diagonal a) := by
    ext v i
    simp [diagDeriv, Matrix.mulVec_diagonal]
  rw [ContinuousLinearMap.det, h, LinearMap.det_toLin', Matrix.det_diagonal]

theorem hasFDerivAt_coordinatewise (g g' : ι → ℝ → ℝ) (hg : ∀ i x, HasDerivAt (g i) (g' i x) x) (y : ι → ℝ) :
    HasFDerivAt (fun y i => g i (y i)) (diagDeriv fun i => g' i (y i)) y := by
  rw [hasFDerivAt_pi']
  intro i
  have h1 := (hg i (y i)).hasFDerivAt.comp y (ContinuousLinearMap.proj (R := ℝ) (φ := fun _ : ι => ℝ) i).hasFDerivAt
  have e : (ContinuousLinearMap.proj (R := ℝ) (φ := fun _ : ι => ℝ) i).comp (diagDeriv fun i => g' i (y i)) =
      (ContinuousLinearMap.toSpanSingleton ℝ (g' i (y i))).comp (ContinuousLinearMap.proj (R := ℝ) (φ := fun _ : ι => ℝ) i) := by
    refine ContinuousLinearMap.ext fun v => ?_
    simp [diagDeriv, mul_comm]
  rw [e]
  exact h1

/-- If coordinates are transformed by injective functions `g i` with positive derivative
`exp (l i)`, the density `exp (f (T y)) * ∏ exp (l i (y i))` is pushed forward to the
density `exp f` on the image. -/
theorem map_withDensity_coordinatewise (g l : ι → ℝ → ℝ) (hg : ∀ i x, HasDerivAt (g i) (Real.exp (l i x)) x)
    (hi : ∀ i, Function.Injective (g i)) (f : (ι → ℝ) → ℝ) (S : Set (ι → ℝ))
    (hS : Set.range (fun (y : ι → ℝ) i => g i (y i)) = S) :
    (volume.withDensity fun y : ι → ℝ => ENNReal.ofReal (Real.exp (f (fun i => g i (y i)) + ∑ i, l i (y i)))).map
        (fun y i => g i (y i)) =
      (volume.restrict S).withDensity fun x => ENNReal.ofReal (Real.exp (f x)) := by
  have hd := hasFDerivAt_coordinatewise g (fun i x => Real.exp (l i x)) hg
  have hcont : Continuous (fun (y : ι → ℝ) i => g i (y i)) :=
    continuous_iff_continuousAt.mpr fun y => (hd y).continuousAt
  have hinj : Function.Injective (fun (y : ι → ℝ) i => g i (y i)) := fun a b h => by
    funext i
    exact hi i (congrFun h i)
  ext A hA
  rw [Measure.map_apply hcont.measurable hA, withDensity_apply _ (hcont.measurable hA), withDensity_apply _ hA,
    Measure.restrict_restrict hA]
  have himg : A ∩ S = (fun (y : ι → ℝ) i => g i (y i)) '' ((fun (y : ι → ℝ) i => g i (y i)) ⁻¹' A) := by
    rw [Set.image_preimage_eq_inter_range, hS]
  rw [himg, lintegral_image_eq_lintegral_abs_det_fderiv_mul volume (hcont.measurable hA)
    (fun y _ => (hd y).hasFDerivWithinAt) hinj.injOn]
  refine setLIntegral_congr_fun (hcont.measurable hA) fun y _ => ?_
  rw [det_diagDeriv, ← Real.exp_sum, abs_of_pos (Real.exp_pos _), ← ENNReal.ofReal_mul (Real.exp_pos _).le,
    ← Real.exp_add, add_comm]

end Edward
