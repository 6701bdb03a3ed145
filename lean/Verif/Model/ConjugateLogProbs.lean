/-
Model of edward/inferences/conjugacy/conjugate_log_probs.py: the reformulated log
probabilities used by `ed.complete_conditional`.

Simplifications, everywhere below: arithmetic is over the reals, `tf.cast` is the identity
and `tf.lgamma x` is `log |Γ x|`. The families with scalar events work entry by entry on
the batch; one entry is modelled (a batch of one dimension for Chi2, whose code sums over
its last axis). `self.parameters['probs']` is `None` when the random variable was made
from `logits`; then `tf.log(None)` raises ValueError.
-/
import Mathlib.Analysis.SpecialFunctions.Gamma.Basic
import Mathlib.Analysis.SpecialFunctions.Log.Basic
import Verif.Model.Distributions

namespace Edward

/-- `tf.lgamma`. -/
noncomputable def lgamma (x : ℝ) : ℝ := Real.log |Real.Gamma x|

/-- `self.parameters['probs']` used as a tensor. -/
def requireProbs {α : Type} : Option α → Except PyErr α
  | some p => .ok p
  | none => .error .valueError

/-- conjugate_log_probs.py:21-25 -/
noncomputable def bernoulliLogProb (probs : Option ℝ) (val : ℝ) : Except PyErr ℝ := do
  let probs ← requireProbs probs
  return val * Real.log probs + (1 - val) * Real.log (1 - probs)

/-- conjugate_log_probs.py:28-35 -/
noncomputable def betaLogProb (conc0 conc1 val : ℝ) : ℝ :=
  let result := (conc1 - 1) * Real.log val
  let result := result + (conc0 - 1) * Real.log (1 - val)
  result + (-lgamma conc1 - lgamma conc0 + lgamma (conc1 + conc0))

/-- conjugate_log_probs.py:38-47 -/
noncomputable def binomialLogProb (n : ℝ) (probs : Option ℝ) (val : ℝ) : Except PyErr ℝ := do
  let probs ← requireProbs probs
  let result := val * Real.log probs + (n - val) * Real.log (1 - probs)
  return result + (lgamma (n + 1) - lgamma (val + 1) - lgamma (n - val + 1))

/-- conjugate_log_probs.py:50-54; `val` is the index of the class, an index outside the
range has an all-zero encoding. -/
noncomputable def categoricalLogProb {K : ℕ} (probs : Option (Fin K → ℝ)) (val : ℤ) : Except PyErr ℝ := do
  let probs ← requireProbs probs
  let oneHot : Fin K → ℝ := fun k => if val = (k : ℤ) then 1 else 0
  return ∑ k, Real.log (probs k) * oneHot k

/-- conjugate_log_probs.py:57-64 on a batch of one dimension: `tf.reduce_sum(·, -1)` sums
over the batch. -/
noncomputable def chi2LogProb {n : ℕ} (df val : Fin n → ℝ) : Fin n → ℝ := fun i =>
  let eta : Fin n → ℝ := fun i => 0.5 * df i - 1
  let result := ∑ j, eta j * Real.log (val j)
  let result := result + Real.exp (-0.5 * val i)
  result - (lgamma (eta i + 1) + (eta i + 1) * Real.log 2)

/-- conjugate_log_probs.py:57-64 on a batch of rank zero: there is no axis `-1`
(ValueError). -/
def chi2LogProbScalar (_df _val : ℝ) : Except PyErr ℝ := .error .valueError

/-- conjugate_log_probs.py:67-73 -/
noncomputable def dirichletLogProb {K : ℕ} (conc val : Fin K → ℝ) : ℝ :=
  let result := ∑ k, (conc k - 1) * Real.log (val k)
  let result := result + ∑ k, -lgamma (conc k)
  result + lgamma (∑ k, conc k)

/-- conjugate_log_probs.py:76-80 -/
noncomputable def exponentialLogProb (rate val : ℝ) : ℝ := Real.log rate - rate * val

/-- conjugate_log_probs.py:83-90 -/
noncomputable def gammaLogProb (conc rate val : ℝ) : ℝ :=
  let result := (conc - 1) * Real.log val
  let result := result - rate * val
  result + (-lgamma conc + conc * Real.log rate)

/-- conjugate_log_probs.py:93-100 -/
noncomputable def inverseGammaLogProb (conc rate val : ℝ) : ℝ :=
  let result := -(conc + 1) * Real.log val
  let result := result - rate * val⁻¹
  result + (-lgamma conc + conc * Real.log rate)

/-- conjugate_log_probs.py:103-109 -/
noncomputable def laplaceLogProb (loc scale val : ℝ) : ℝ :=
  -Real.log (2 * scale) - |val - loc| / scale

/-- conjugate_log_probs.py:112-120 -/
noncomputable def multinomialLogProb {K : ℕ} (n : ℝ) (probs : Option (Fin K → ℝ)) (val : Fin K → ℝ) :
    Except PyErr ℝ := do
  let probs ← requireProbs probs
  let result := ∑ k, Real.log (probs k) * val k
  return result + (lgamma (n + 1) - ∑ k, lgamma (val k + 1))

/-- conjugate_log_probs.py:123-131: the result keeps the event dimension, one entry per
coordinate. -/
noncomputable def mvnDiagLogProb {K : ℕ} (loc scaleDiag val : Fin K → ℝ) : Fin K → ℝ := fun k =>
  let prec := (scaleDiag k ^ 2)⁻¹
  let result := prec * (-0.5 * val k ^ 2 - 0.5 * loc k ^ 2 + val k * loc k)
  result - (Real.log (scaleDiag k) + 0.5 * Real.log (2 * Real.pi))

/-- conjugate_log_probs.py:134-142 -/
noncomputable def normalLogProb (loc scale val : ℝ) : ℝ :=
  let prec := (scale ^ 2)⁻¹
  let result := prec * (-0.5 * val ^ 2 - 0.5 * loc ^ 2 + val * loc)
  result - (Real.log scale + 0.5 * Real.log (2 * Real.pi))

/-- conjugate_log_probs.py:145-151 -/
noncomputable def poissonLogProb (rate val : ℝ) : ℝ :=
  let result := val * Real.log rate
  result + (-rate - lgamma (val + 1))

/-- `tf.log` with its values at zero. -/
noncomputable def xlog (p : ENNReal) : XNum := .val (ENNReal.log p)

/-- conjugate_log_probs.py:21-25 with infinities: the arithmetic of one entry, for the
probability `p` and an outcome 0 or 1. -/
noncomputable def bernoulliLogProbX (p : ENNReal) (b : Bool) : XNum :=
  let val : EReal := if b then 1 else 0
  ((XNum.val val).mul (xlog p)).add ((XNum.val (1 - val)).mul (xlog (1 - p)))

/-- conjugate_log_probs.py:50-54 with infinities. -/
noncomputable def categoricalLogProbX (probs : List ENNReal) (val : ℕ) : XNum :=
  XNum.sum (probs.mapIdx fun k p => (xlog p).mul (.val (if val = k then 1 else 0)))

end Edward
