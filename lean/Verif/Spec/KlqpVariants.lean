/-
Specification for C141: the builders that need reparameterizable approximations, and the objective.
-/
import Verif.Model.KlqpVariants
import Mathlib.Analysis.SpecialFunctions.Log.Basic

namespace Edward.Spec

/-- The builders whose gradient is right only if the samples are differentiable functions of the parameters. -/
def needsReparam : KlqpBuilder → Bool
  | .reparam => true
  | .reparamKl => true
  | .reparamEntropy => true
  | _ => false

/-- `E_q[log q - log p(x, z)]` for an approximation with finitely many values. -/
noncomputable def finiteObjective {Ω : Type} [Fintype Ω] (q : Ω → ℝ) (logJ : Ω → ℝ) : ℝ := ∑ ω, q ω * (Real.log (q ω) - logJ ω)

end Edward.Spec
