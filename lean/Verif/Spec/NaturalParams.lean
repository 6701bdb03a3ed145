/-
What it means for a distribution to have given sufficient statistics and natural
parameters.
-/
import Verif.Model.NaturalParams
import Verif.Spec.Densities
import Verif.Spec.Simplify

namespace Edward.Spec

open Expr ProbabilityTheory

/-- The points of a support, as entries. For a class, every entry repeats its number. -/
def InSupport {n : ℕ} : Support → (Fin n → ℝ) → Prop
  | .binary, x => ∀ i, x i = 0 ∨ x i = 1
  | .unit, x => ∀ i, 0 < x i ∧ x i < 1
  | .categorical, x => ∃ k : Fin n, ∀ i, x i = (k : ℕ)
  | .nonnegative, x => ∀ i, 0 < x i
  | .simplex, x => (∀ i, 0 < x i) ∧ ∑ i, x i = 1
  | .countable, x => ∀ i, ∃ k : ℕ, x i = k
  | .onehot, x => ∃ k, ∀ i, x i = if i = k then 1 else 0
  | .real, _ => True
  | .multivariateReal, _ => True
  | .point, _ => True
  | .points, _ => True
  | .other, _ => True

/-- Parameters for which the density is one. -/
def CondDist.Valid {n : ℕ} : CondDist n → Prop
  | .bernoulli _ => True
  | .beta c1 c0 => ∀ i, 0 < c1 i ∧ 0 < c0 i
  | .categorical _ => 0 < n
  | .chi2 df => ∀ i, 0 < df i
  | .dirichlet c => 0 < n ∧ ∀ i, 0 < c i
  | .exponential r => ∀ i, 0 < r i
  | .gamma c r => ∀ i, 0 < c i ∧ 0 < r i
  | .inverseGamma c r => ∀ i, 0 < c i ∧ 0 < r i
  | .mvnDiag _ s => ∀ i, 0 < s i
  | .normal _ s => ∀ i, 0 < s i
  | .poisson r => ∀ i, 0 < r i

/-- Log density at a point of the support. Entries are independent, except for Categorical
and Dirichlet, whose entries belong to one variable. -/
noncomputable def CondDist.logDensity {n : ℕ} : CondDist n → (Fin n → ℝ) → ℝ
  | .bernoulli l, x => ∑ i, Real.log (bernoulliMass (1 / (1 + Real.exp (-l i))) (x i = 1))
  | .beta c1 c0, x => ∑ i, Real.log (betaPDFReal (c1 i) (c0 i) (x i))
  | .categorical l, x => ∑ i, if x i = (i : ℕ) then Real.log (Real.exp (l i) / ∑ j, Real.exp (l j)) else 0
  | .chi2 df, x => ∑ i, Real.log (chi2Density (df i) (x i))
  | .dirichlet c, x => Real.log (dirichletDensity c x)
  | .exponential r, x => ∑ i, Real.log (exponentialPDFReal (r i) (x i))
  | .gamma c r, x => ∑ i, Real.log (gammaPDFReal (c i) (r i) (x i))
  | .inverseGamma c r, x => ∑ i, Real.log (inverseGammaDensity (c i) (r i) (x i))
  | .mvnDiag m s, x => Real.log (mvnDiagDensity m s x)
  | .normal m s, x => ∑ i, Real.log (normalDensity (m i) (s i) (x i))
  | .poisson r, x => ∑ i, Real.log (poissonMass (r i) ⌊x i⌋₊)

/-- The values of the symbols for entry `i` of the statistics at `x`. -/
noncomputable def entryEnv {n : ℕ} (tensor : TfNode → List ℝ → ℝ) (x : Fin n → ℝ) (i : Fin n) : Env where
  x := x i
  tensor := tensor
  oneHot l := if l.head? = some ((i : ℕ) : ℝ) then 1 else 0

/-- Entry `i` of the statistic that is the product of the factors `fs`. -/
noncomputable def statistic {n : ℕ} (tensor : TfNode → List ℝ → ℝ) (fs : List Expr) (x : Fin n → ℝ) (i : Fin n) : ℝ :=
  (fs.map (eval (entryEnv tensor x i))).prod

/-- `η · t(x)`: natural parameters times statistics, over all statistics and entries. -/
noncomputable def pairing {n : ℕ} (tensor : TfNode → List ℝ → ℝ) (fss : List (List Expr)) (η : List (Fin n → ℝ))
    (x : Fin n → ℝ) : ℝ :=
  ((fss.zip η).map fun p => ∑ i, p.2 i * statistic tensor p.1 x i).sum

end Edward.Spec
