/- Two blocks of latent variables with independent approximations (C134). -/
import Mathlib.MeasureTheory.Measure.Prod
import Verif.Model.Variational
import Verif.Props.Elbo

namespace Edward.Spec
open MeasureTheory
variable {Z X I A B : Type} [Fintype I] [MeasurableSpace A] [MeasurableSpace B]

/-- The latent variables of `v` fall into those with `own`, approximated by the density `q₁` of the first component of a draw, and
the others, approximated by the density `q₂` of the second; `j` is the joint density of both blocks and the data. -/
structure TwoBlocks (v : ViProblem Z X I (A × B)) (own : Z → Bool) (μ₁ : Measure A) (μ₂ : Measure B) (q₁ : A → ℝ) (q₂ : B → ℝ)
    (j : A × B → ℝ) : Prop where
  nonneg₁ : ∀ a, 0 ≤ q₁ a
  nonneg₂ : ∀ b, 0 ≤ q₂ b
  meas₁ : Measurable q₁
  meas₂ : Measurable q₂
  mass₁ : ∫⁻ a, ENNReal.ofReal (q₁ a) ∂μ₁ = 1
  mass₂ : ∫⁻ b, ENNReal.ofReal (q₂ b) ∂μ₂ = 1
  pos : ∀ ω, 0 < j ω
  meas : Measurable j
  finite : ∫⁻ ω, ENNReal.ofReal (j ω) ∂μ₁.prod μ₂ ≠ ⊤
  first : ∀ a b, 0 < q₁ a →
    ((v.latents.filter fun z => own z).map fun z => ∑ i, v.scaleZ z i * v.logQ z (a, b) i).sum = Real.log (q₁ a)
  second : ∀ a b, 0 < q₂ b →
    ((v.latents.filter fun z => !own z).map fun z => ∑ i, v.scaleZ z i * v.logQ z (a, b) i).sum = Real.log (q₂ b)
  joint : ∀ ω, logJoint v ω = Real.log (j ω)
  int₁ : Integrable (fun a => Real.log (q₁ a)) (lawOf μ₁ q₁)
  int₂ : Integrable (fun b => Real.log (q₂ b)) (lawOf μ₂ q₂)
  int : Integrable (fun ω => Real.log (j ω)) ((lawOf μ₁ q₁).prod (lawOf μ₂ q₂))

/-- The first block is the point `a`; the second is approximated by the density `q`; `j` is the joint density of the second block and the
data at that point, times the prior density of the point. -/
structure PointBlock (v : ViProblem Z X I (A × B)) (own : Z → Bool) (a : A) (μ : Measure B) (q : B → ℝ) (j : B → ℝ) : Prop where
  nonneg : ∀ b, 0 ≤ q b
  qmeas : Measurable q
  mass : ∫⁻ b, ENNReal.ofReal (q b) ∂μ = 1
  pos : ∀ b, 0 < j b
  meas : Measurable j
  finite : ∫⁻ b, ENNReal.ofReal (j b) ∂μ ≠ ⊤
  second : ∀ b, 0 < q b → ((v.latents.filter fun z => !own z).map fun z => ∑ i, v.scaleZ z i * v.logQ z (a, b) i).sum = Real.log (q b)
  joint : ∀ b, logJoint v (a, b) = Real.log (j b)
  intq : Integrable (fun b => Real.log (q b)) (lawOf μ q)
  int : Integrable (fun b => Real.log (j b)) (lawOf μ q)

end Edward.Spec
