/-
Model of the sleep phase of `WakeSleep` (edward/inferences/wake_sleep.py:87-94, 119-131): the values at which
`log q` is evaluated.

A draw is a pair: the values of the observed variables, and the values of the latent variables. The losses are
those of `Verif.Model.Variational`. Data are not random variables.
-/
import Verif.Model.Variational

namespace Edward
variable {Z X I D W : Type} [Fintype I]

/-- `p_dict_swap` (wake_sleep.py:122-126): it starts as a copy of `dict_swap`, which binds the observed variables to
the data `x₀`, and binds the approximations to the sample `z` of the prior. The observed variables are not
sampled. -/
def sleepDraw (x₀ : D) (z : W) : D × W := (x₀, z)

/-- `loss_q` with `phase_q='sleep'`, given the samples `zs` of the prior. -/
noncomputable def sleepLoss (v : ViProblem Z X I (D × W)) (n : ℕ) (x₀ : D) (qDraws : Fin n → D × W) (zs : Fin n → W)
    (reg : ℝ) : ℝ :=
  (wakeSleepLosses v true n qDraws (fun s => sleepDraw x₀ (zs s)) reg).2

end Edward
