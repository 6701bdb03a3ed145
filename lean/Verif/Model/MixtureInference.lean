/-
Model of inference with `ParamMixture` random variables whose `cat` is not inferred: as an approximation in KLqp
(edward/inferences/klqp.py:642-704) and as an observed variable in MAP (edward/inferences/map.py:115-153).

`ParamMixture` has the `reparameterization_type` of its components (param_mixture.py:142), so a mixture of Normals is taken to be
reparameterizable (klqp.py:138-152). Scalar components; the ranks of param_mixture.py are modelled in Model/Distributions.lean. The
copy of a `ParamMixture` has its own `cat` and components, created by its constructor (param_mixture.py:83-92); its value and its
`log_prob` share them (param_mixture.py:188, 221-222). A draw holds both.
-/
import Verif.Model.Variational

namespace Edward
variable {K N : ℕ} {W A Z : Type}

/-- `tf.reduce_sum(t * tf.one_hot(cat, num_components), axis)` (param_mixture.py:187-197, 230-241). -/
noncomputable def mixtureSelect (cat : Fin K) (t : Fin K → ℝ) : ℝ := ∑ k, t k * (if k = cat then 1 else 0)

/-- The value (param_mixture.py:216-241) from `cat` and the samples of the components. -/
noncomputable def mixtureValue (ω : Fin K × (Fin K → ℝ)) : ℝ := mixtureSelect ω.1 ω.2

/-- `log_prob(x)` (param_mixture.py:178-197), `logF k` being that of component `k`. The weights do not occur. -/
noncomputable def mixtureCondLogProb (logF : Fin K → A → ℝ) (cat : Fin K) (x : A) : ℝ := mixtureSelect cat fun k => logF k x

/-- KLqp({z: qz}) with a ParamMixture `qz`; `logP` is the log joint density. -/
noncomputable def mixtureVi (logF : Fin K → ℝ → ℝ) (logP : ℝ → ℝ) : ViProblem Unit Empty Unit (Fin K × (Fin K → ℝ)) where
  latents := [()]
  observed := []
  scaleZ := fun _ _ => 1
  scaleX := fun _ _ => 1
  logQ := fun _ ω _ => mixtureCondLogProb logF ω.1 (mixtureValue ω)
  logP := fun _ ω _ => logP (mixtureValue ω)
  logLik := fun _ _ _ => 0

/-- Inference from data `x` bound to a ParamMixture with `sample_shape=N`, whose components have log densities `logF w` when the
`tf.Variable`s and other nodes they are built from have the values `w`; a draw holds these values and the `cat` of the copy, one
entry per data point. Parameters that are random variables: Model/CopyArgs.lean. -/
noncomputable def observedMixtureVi (latents : List Z) (logPrior logQ : Z → W → ℝ) (logF : W → Fin K → A → ℝ) (x : Fin N → A) :
    ViProblem Z Unit (Option (Fin N)) (W × (Fin N → Fin K)) where
  latents := latents
  observed := [()]
  scaleZ := fun _ _ => 1
  scaleX := fun _ _ => 1
  logQ := fun z ω i => match i with | none => logQ z ω.1 | some _ => 0
  logP := fun z ω i => match i with | none => logPrior z ω.1 | some _ => 0
  logLik := fun _ ω i => match i with | none => 0 | some i => mixtureCondLogProb (logF ω.1) (ω.2 i) (x i)

end Edward
