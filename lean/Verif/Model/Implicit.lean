/-
Model of the losses of `ImplicitKLqp` (edward/inferences/implicit_klqp.py:149-225) with at most one entry in `scale`.

Data points are elements of `A`, local latent variables of `B`, the global ones together an element of `Γ`. There are `M` data
points; the discriminator is a function `r x z β` applied to each row of its arguments, as its documentation asks.
-/
import Mathlib.Probability.Kernel.Basic
import Mathlib.MeasureTheory.Integral.Bochner.Basic
import Verif.Model.Variational

open MeasureTheory ProbabilityTheory

namespace Edward

/-- The value of the local variable in `dict_swap` when `x_copy` is made (implicit_klqp.py:172-173, 176-187):
`dict_swap.update(qz_sample)`. -/
def conditioningSample {B : Type} (_pzSample qzSample : B) : B := qzSample

/-- `loss` and `loss_d` (implicit_klqp.py:197-201, 214-216): `rp`, `rq` are `r_psample`, `r_qsample`; `logP`, `logQ` are
`pbeta_log_prob`, `qbeta_log_prob`; `reg`, `regD` are the sums of the regularisation losses outside and inside `Disc`. -/
noncomputable def implicitLosses {M : ℕ} (ratioLoss : ℝ → ℝ → ℝ) (logP logQ : ℝ) (scale rp rq : Fin M → ℝ) (reg regD : ℝ) : ℝ × ℝ :=
  (-(logP - logQ + ∑ m, scale m * rq m - reg), (∑ m, ratioLoss (rp m) (rq m)) / M + regD)

/-- Both losses of one run of the graph (implicit_klqp.py:149-216), from the draw `β` of the global variables, the draws `pz`, `qz` of
the local ones and the data `xGen β z` that the copied model generates when its local variables are `z`. -/
noncomputable def implicitRun {A B Γ : Type} {M : ℕ} (ratioLoss : ℝ → ℝ → ℝ) (logP logQ : Γ → ℝ) (scale : Fin M → ℝ) (xData : Fin M → A)
    (xGen : Γ → (Fin M → B) → Fin M → A) (r : A → B → Γ → ℝ) (reg regD : ℝ) (β : Γ) (pz qz : Fin M → B) : ℝ × ℝ :=
  implicitLosses ratioLoss (logP β) (logQ β) scale
    (fun m => r (xGen β (fun i => conditioningSample (pz i) (qz i)) m) (pz m) β) (fun m => r (xData m) (qz m) β) reg regD

/-- Expectation of `loss_d` (implicit_klqp.py:189-197) at one sample of the global variables and without regularisation: `pz` is the prior
of the local variable, `lik z` the law of the data given it, `qz x` the approximation given the data point. Draws for different data points
are independent, so that the expectation of the mean of line 198 is the mean of the expectations written here. -/
noncomputable def expectedLossD {A B : Type} [MeasurableSpace A] [MeasurableSpace B] {M : ℕ} (ratioLoss : ℝ → ℝ → ℝ) (xData : Fin M → A)
    (pz : Measure B) (lik : Kernel B A) (qz : A → Measure B) (r : A → B → ℝ) : ℝ :=
  (∑ m, ∫ zp, ∫ zq, ∫ xp, ratioLoss (r xp zp) (r (xData m) zq) ∂lik (conditioningSample zp zq) ∂qz (xData m) ∂pz) / M

end Edward
