/-
Model of the table `_suff_stat_to_dist` of edward/inferences/conjugacy/conjugacy.py:18-59:
from a support and sufficient statistics to a family, and from natural parameters to the
family's parameters.

Simplification: parameter tensors are given by their entries, indexed by `Fin n`; for
Categorical, Dirichlet and MultivariateNormalDiag the index runs over the event.
-/
import Mathlib.Analysis.SpecialFunctions.Exp
import Mathlib.Analysis.SpecialFunctions.Sqrt
import Verif.Model.Conjugacy

namespace Edward

open Expr

/-- The supports of edward/models/random_variables.py:30-43. -/
inductive Support
  | binary
  | unit
  | onehot
  | categorical
  | nonnegative
  | simplex
  | real
  | multivariateReal
  | countable
  /-- edward/models/point_mass.py:109 -/
  | point
  /-- edward/models/empirical.py:124 -/
  | points
  /-- Any other string. -/
  | other
  deriving DecidableEq

/-- The families in the table. -/
inductive Family
  | bernoulli
  | beta
  | categorical
  | chi2
  | dirichlet
  | exponential
  | gamma
  | inverseGamma
  | mvnDiag
  | normal
  | poisson
  deriving DecidableEq

/-- A key of `s_stat_exprs`: a tuple. -/
abbrev Key := List Item

/-- `_suff_stat_to_dist[support].get(dist_key)` (conjugacy.py:30-59). -/
def suffStatToDist : Support → List Key → Option Family
  | .binary, [[.inl .x]] => some .bernoulli
  | .unit, [[.inl .log, .inr (node .oneMinus [node .x []])], [.inl .log, .inr (node .x [])]] => some .beta
  | .categorical, [[.inl .oneHot, .inr (node .x [])]] => some .categorical
  | .nonnegative, [[.inl .log, .inr (node .x [])]] => some .chi2
  | .simplex, [[.inl .log, .inr (node .x [])]] => some .dirichlet
  | .nonnegative, [[.inl .x]] => some .exponential
  | .nonnegative, [[.inl .log, .inr (node .x [])], [.inl .x]] => some .gamma
  | .nonnegative, [[.inl (.cpow p), .inr (node .x [])], [.inl .log, .inr (node .x [])]] =>
    if p = -1 then some .inverseGamma else none
  | .multivariateReal, [[.inl (.cpow p), .inr (node .x [])], [.inl .x]] => if p = 2 then some .mvnDiag else none
  | .real, [[.inl (.cpow p), .inr (node .x [])], [.inl .x]] => if p = 2 then some .normal else none
  | .countable, [[.inl .x]] => some .poisson
  | _, _ => none

/-- A distribution with its parameters. -/
inductive CondDist (n : ℕ)
  | bernoulli (logits : Fin n → ℝ)
  | beta (concentration1 concentration0 : Fin n → ℝ)
  | categorical (logits : Fin n → ℝ)
  | chi2 (df : Fin n → ℝ)
  | dirichlet (concentration : Fin n → ℝ)
  | exponential (rate : Fin n → ℝ)
  | gamma (concentration rate : Fin n → ℝ)
  | inverseGamma (concentration rate : Fin n → ℝ)
  | mvnDiag (loc scaleDiag : Fin n → ℝ)
  | normal (loc scale : Fin n → ℝ)
  | poisson (rate : Fin n → ℝ)

/-- conjugacy.py:18-21 and 24-27: `loc` and `scale`. -/
noncomputable def normalFromNaturalParams {n : ℕ} (p1 p2 : Fin n → ℝ) : (Fin n → ℝ) × (Fin n → ℝ) :=
  let sigmasq : Fin n → ℝ := fun i => 0.5 * (-p1 i)⁻¹
  let loc : Fin n → ℝ := fun i => sigmasq i * p2 i
  (loc, fun i => √(sigmasq i))

/-- The functions of the table, applied to the natural parameters (conjugacy.py:30-59, 172).
The wrong number of arguments is a TypeError. -/
noncomputable def constructDist {n : ℕ} : Family → List (Fin n → ℝ) → Except PyErr (CondDist n)
  | .bernoulli, [p1] => .ok (.bernoulli p1)
  | .beta, [p1, p2] => .ok (.beta (fun i => p2 i + 1) (fun i => p1 i + 1))
  | .categorical, [p1] => .ok (.categorical p1)
  | .chi2, [p1] => .ok (.chi2 fun i => 2 * (p1 i + 1))
  | .dirichlet, [p1] => .ok (.dirichlet fun i => p1 i + 1)
  | .exponential, [p1] => .ok (.exponential fun i => -p1 i)
  | .gamma, [p1, p2] => .ok (.gamma (fun i => p1 i + 1) (fun i => -p2 i))
  | .inverseGamma, [p1, p2] => .ok (.inverseGamma (fun i => -p2 i - 1) (fun i => -p1 i))
  | .mvnDiag, [p1, p2] => let r := normalFromNaturalParams p1 p2; .ok (.mvnDiag r.1 r.2)
  | .normal, [p1, p2] => let r := normalFromNaturalParams p1 p2; .ok (.normal r.1 r.2)
  | .poisson, [p1] => .ok (.poisson fun i => Real.exp (p1 i))
  | _, _ => .error .typeError

end Edward
