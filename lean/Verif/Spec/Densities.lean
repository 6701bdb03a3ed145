/-
Densities of the families `ed.complete_conditional` knows, with respect to Lebesgue or
counting measure. Mathlib's densities are used where it has them.
-/
import Mathlib.Probability.Distributions.Gaussian.Real
import Mathlib.Probability.Distributions.Gamma
import Mathlib.Probability.Distributions.Beta
import Mathlib.Probability.Distributions.Exponential
import Mathlib.Probability.Distributions.Poisson.Basic
import Mathlib.Data.Nat.Choose.Multinomial

namespace Edward.Spec

open ProbabilityTheory

/-- Probability that a Bernoulli variable with success probability `p` takes the value `b`. -/
noncomputable def bernoulliMass (p : ℝ) (b : Bool) : ℝ := if b then p else 1 - p

/-- Probability of `k` successes in `n` trials. -/
noncomputable def binomialMass (n : ℕ) (p : ℝ) (k : ℕ) : ℝ := n.choose k * p ^ k * (1 - p) ^ (n - k)

/-- Probability of the counts `k` in `∑ k` trials. -/
noncomputable def multinomialMass {K : ℕ} (p : Fin K → ℝ) (k : Fin K → ℕ) : ℝ :=
  Nat.multinomial Finset.univ k * ∏ i, p i ^ k i

/-- Density of the Dirichlet distribution on the simplex (with respect to Lebesgue measure
on all but one of the coordinates). -/
noncomputable def dirichletDensity {K : ℕ} (α x : Fin K → ℝ) : ℝ :=
  Real.Gamma (∑ i, α i) / (∏ i, Real.Gamma (α i)) * ∏ i, x i ^ (α i - 1)

/-- Density of the reciprocal of a Gamma variable: that of the variable at `1 / x` times the
derivative of the reciprocal. -/
noncomputable def inverseGammaDensity (a r x : ℝ) : ℝ := gammaPDFReal a r x⁻¹ * (x ^ 2)⁻¹

/-- Density of the Laplace distribution. -/
noncomputable def laplaceDensity (μ b x : ℝ) : ℝ := Real.exp (-(|x - μ| / b)) / (2 * b)

/-- Density of the chi-squared distribution: Gamma with half the degrees of freedom and rate
one half. -/
noncomputable def chi2Density (df x : ℝ) : ℝ := gammaPDFReal (df / 2) (1 / 2) x

/-- Density of the normal distribution with standard deviation `σ`. -/
noncomputable def normalDensity (μ σ x : ℝ) : ℝ := gaussianPDFReal μ (σ ^ 2).toNNReal x

/-- Density of independent normal coordinates. -/
noncomputable def mvnDiagDensity {K : ℕ} (μ σ x : Fin K → ℝ) : ℝ := ∏ i, normalDensity (μ i) (σ i) (x i)

/-- Probability mass function of the Poisson distribution. -/
noncomputable def poissonMass (r : ℝ) (n : ℕ) : ℝ := (poissonMeasure r.toNNReal).real {n}

end Edward.Spec
