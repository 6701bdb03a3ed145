/- Documented ratio and objective of ImplicitKLqp (C88, C136). -/
import Mathlib.Probability.Kernel.Basic
import Verif.Props.Elbo

namespace Edward.Spec
open MeasureTheory ProbabilityTheory

section ratio
variable {A B : Type} [MeasurableSpace A] [MeasurableSpace B] [DecidableEq A] {M : ℕ}

/-- The empirical distribution of the data. -/
noncomputable def empirical (xData : Fin M → A) (x : A) : ℝ := ((Finset.univ.filter fun m => xData m = x).card : ℝ) / M

/-- `log p(x, z) - log q(x, z)`, the documented target of the ratio estimation: `p`, `q x` are densities of the local variable under
the model and the approximation. -/
noncomputable def logRatio (xData : Fin M → A) (p : B → ℝ) (lik : Kernel B A) (q : A → B → ℝ) (x : A) (z : B) : ℝ :=
  Real.log (p z * (lik z).real {x} / (empirical xData x * q x z))

/-- The law of `x'` under the model with the approximation instead of the prior. -/
noncomputable def mixedMarginal (xData : Fin M → A) (μ : Measure B) (lik : Kernel B A) (q : A → B → ℝ) (x : A) : ℝ :=
  (∑ m, ∫ z, (lik z).real {x} ∂lawOf μ (q (xData m))) / M

/-- The model, its data and its approximation: every value of the data is observed and has positive probability given every value of the
local variable, whose laws have positive densities with respect to `μ`. -/
structure ImplicitOk (xData : Fin M → A) (μ : Measure B) (p : B → ℝ) (lik : Kernel B A) (q : A → B → ℝ) : Prop where
  M_pos : 0 < M
  data : ∀ x, ∃ m, xData m = x
  p_pos : ∀ z, 0 < p z
  p_meas : Measurable p
  p_mass : ∫⁻ z, ENNReal.ofReal (p z) ∂μ = 1
  lik_pos : ∀ z x, 0 < (lik z).real {x}
  q_pos : ∀ x z, 0 < q x z
  q_meas : ∀ x, Measurable (q x)
  q_mass : ∀ x, ∫⁻ z, ENNReal.ofReal (q x z) ∂μ = 1

/-- The two parts of the expected log loss of the discriminator `r` are finite: those at the draws of the model, `-log σ(r)`, and those at
the draws of the approximation, `-log (1 - σ(r))`. -/
def HasRatioLoss (μ : Measure B) (p : B → ℝ) (q : A → B → ℝ) (r : A → B → ℝ) : Prop :=
  ∀ x, Integrable (fun z => Real.log (1 + Real.exp (-r x z))) (lawOf μ p) ∧ Integrable (fun z => Real.log (1 + Real.exp (r x z))) (lawOf μ (q x))

end ratio

section objective
variable {Λ E Γ B : Type} [MeasurableSpace E] [MeasurableSpace Γ] [MeasurableSpace B] {M : ℕ}

/-- Approximations with parameters `l`. With noise `ε` of law `ρ`, `glob l ε` is the draw of the global variables and `loc l ε m` that of the
`m`-th local one; `b l` is the density of the former, `q l m β` of the latter given the former. -/
structure Reparameterised (ρ : Measure E) (ν : Measure Γ) (μ : Measure B) (glob : Λ → E → Γ) (loc : Λ → E → Fin M → B) (b : Λ → Γ → ℝ)
    (q : Λ → Fin M → Γ → B → ℝ) : Prop where
  meas : ∀ l m, Measurable fun ε => (glob l ε, loc l ε m)
  law : ∀ l m, ρ.map (fun ε => (glob l ε, loc l ε m)) = lawOf (ν.prod μ) fun w => b l w.1 * q l m w.1 w.2
  b_pos : ∀ l β, 0 < b l β
  b_meas : ∀ l, Measurable (b l)
  b_mass : ∀ l, ∫⁻ β, ENNReal.ofReal (b l β) ∂ν = 1
  q_pos : ∀ l m β z, 0 < q l m β z
  q_meas : ∀ l m, Measurable (Function.uncurry (q l m))
  q_mass : ∀ l m β, ∫⁻ z, ENNReal.ofReal (q l m β z) ∂μ = 1

/-- The integrand of the documented objective (implicit_klqp.py:108-110): `logP` is the log density of the global variables, `j m β z` that of
the `m`-th data point and its local variable given them, `e m` the empirical probability of the data point, `scale m` its weight. -/
noncomputable def documented (logP : Γ → ℝ) (b : Γ → ℝ) (scale e : Fin M → ℝ) (j q : Fin M → Γ → B → ℝ) (β : Γ) (z : Fin M → B) : ℝ :=
  -(logP β - Real.log (b β) + ∑ m, scale m * (Real.log (j m β (z m)) - Real.log (e m * q m β (z m))))

end objective

end Edward.Spec
