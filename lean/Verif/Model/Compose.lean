/-
Model of composed inferences (docs/tex/api/inference-compositionality.tex,
examples/probabilistic_pca_subsampling.py:66-84): an inference of some of the latent variables, in
whose `data` the other latent variables are bound to their approximations.
-/
import Verif.Model.Variational

namespace Edward
variable {Z X I Ω : Type}

/-- The problem of `Inference({z: qz for z in own}, data={x: x_data, z: qz for the other z})`, cut out of the problem `v` of
`Inference({z: qz for all z}, data={x: x_data})`. A key of `data` bound to a random variable is replaced by a draw of that
variable (klqp.py:644-651, map.py:124-131), so draws are as in `v`; it adds its log prior to `p_log_prob` as observed
variables do (klqp.py:682-686) and nothing to `q_log_prob`. Bound latent variables come first in `data`; sums do not depend
on it. The dictionary `scale` is the same. -/
def ViProblem.bind (v : ViProblem Z X I Ω) (own : Z → Bool) : ViProblem Z (Z ⊕ X) I Ω where
  latents := v.latents.filter own
  observed := (v.latents.filter fun z => !own z).map .inl ++ v.observed.map .inr
  scaleZ := v.scaleZ
  scaleX := Sum.elim v.scaleZ v.scaleX
  logQ := v.logQ
  logP := v.logP
  logLik := Sum.elim v.logP v.logLik

end Edward
