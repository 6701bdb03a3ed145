/-
Specification for C139: the law of a mixture, and what KL(q || p) and the log likelihood are for it.
-/
import Mathlib.MeasureTheory.Constructions.Pi
import Mathlib.MeasureTheory.Integral.Bochner.Basic
import Mathlib.Analysis.SpecialFunctions.Log.Basic

namespace Edward.Spec
open MeasureTheory
variable {K : ℕ}

/-- The density of the mixture. -/
noncomputable def mixtureDensity {A : Type} (w : Fin K → ℝ) (f : Fin K → A → ℝ) (x : A) : ℝ := ∑ k, w k * f k x

/-- The law of `cat` and of the samples of all components. -/
noncomputable def mixtureDrawLaw (w : Fin K → ℝ) (ρ : Fin K → Measure ℝ) : Measure (Fin K × (Fin K → ℝ)) :=
  ∑ k, ENNReal.ofReal (w k) • (Measure.dirac k).prod (Measure.pi ρ)

/-- `E_q[log q - log p]` for a density `q`. -/
noncomputable def klObjective (μ : Measure ℝ) (logP : ℝ → ℝ) (q : ℝ → ℝ) : ℝ := ∫ x, q x * (Real.log (q x) - logP x) ∂μ

end Edward.Spec
