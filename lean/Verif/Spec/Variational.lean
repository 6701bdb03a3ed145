/-
Specification of the variational objectives, written over the densities of one draw.
-/
import Verif.Model.Variational

namespace Edward.Spec
variable {Z X I Ω : Type} [Fintype I]

/-- Scaled log joint density of one draw. -/
def logJoint (v : ViProblem Z X I Ω) (ω : Ω) : ℝ :=
  (v.latents.map fun z => ∑ i, v.scaleZ z i * v.logP z ω i).sum +
    (v.observed.map fun x => ∑ i, v.scaleX x i * v.logLik x ω i).sum

/-- Scaled log likelihood of one draw. -/
def logLik (v : ViProblem Z X I Ω) (ω : Ω) : ℝ :=
  (v.observed.map fun x => ∑ i, v.scaleX x i * v.logLik x ω i).sum

/-- Scaled log density of the approximation at one draw. -/
def logApprox (v : ViProblem Z X I Ω) (ω : Ω) : ℝ :=
  (v.latents.map fun z => ∑ i, v.scaleZ z i * v.logQ z ω i).sum

/-- Average over the draws. -/
noncomputable def average {n : ℕ} (f : Fin n → ℝ) : ℝ := (∑ s, f s) / n

/-- Probability of `n` independent draws from the mass function `q`. -/
def drawsProb {n : ℕ} (q : Ω → ℝ) (d : Fin n → Ω) : ℝ := ∏ s, q (d s)

end Edward.Spec
