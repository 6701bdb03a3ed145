/-
Model of the predictions of `ed.evaluate` (edward/criticisms/evaluate.py:128-162) and of
the observations and probabilities it hands to the metrics.

Outputs are scalar or, for the multinomial, one vector of counts (`len(probs)` classes);
batches of multinomials and `sample_shape` are not modelled. Numbers are real. The
`s`-th session run gives `probs s` or the draw `y s`.
-/
import Verif.Model.Metrics
import Verif.Model.MultinomialMode
import Verif.Model.CheckData

namespace Edward

/-- Lines 138-139, `np.sum(probs, axis=0) / n_samples`, and lines 157-159,
`tf.add_n(y_pred) / n_samples`: the average over the session runs. -/
noncomputable def runMean {A : Type} {n : ℕ} (x : Fin n → A → ℝ) (a : A) : ℝ := (∑ s, x s a) / n

/-- Lines 140-143: `y_pred` of a Bernoulli or a Binomial output. `random` is the uniform
draw of line 142. The number of trials is not used. -/
noncomputable def binaryPrediction {A : Type} {n : ℕ} (probs : Fin n → A → ℝ) (random : A → ℝ)
    (a : A) : ℝ :=
  roundPrediction (runMean probs a) (random a)

/-- What is predicted for a categorical or multinomial output. -/
inductive CatPrediction (K : ℕ)
  | label (k : Fin K)
  | counts (m : Fin K → ℕ)

/-- Lines 144-154: the prediction for a categorical or multinomial output with `total`
trials, and the probabilities left in the array `probs`, from which line 154 makes the
constant used by `kl_divergence`. The array is passed to `compute_multinomial_mode`, which
works in place. `cold` are its random choices, `am` its `argmax`. -/
def CatPredicts {k : ℕ} (probs : Fin (k + 1) → ℝ) (total : ℕ) (am : Fin (k + 1))
    (cold : ℕ → Choice (k + 1)) (pred : CatPrediction (k + 1)) (left : Fin (k + 1) → ℝ) : Prop :=
  if 1 < total then ∃ m, pred = .counts m ∧ ModeReturns probs total am cold m left
  else pred = .label (argmax probs) ∧ left = probs

/-- Lines 193-196: the `kl_divergence` metric of observed counts `y`. -/
noncomputable def klMetric {K : ℕ} (total : ℕ) (y : Fin K → ℕ) (left : Fin K → ℝ) : EReal :=
  klDivergence (fun (_ : Unit) i => (y i : ℝ) / total) (fun _ i => left i)

/-- `'mse'` of the average of the draws (lines 157-159, 203 and 403-411, with the default
`average`), for a vector of observations. -/
noncomputable def mseMetric {A : Type} [Fintype A] {n : ℕ} (yt : A → ℝ) (y : Fin n → A → ℝ) : ℝ :=
  reduceMean fun a => (runMean y a - yt a) ^ 2

/-- Line 160, `len(y_true.shape)`. Python numbers, strings and lists have no attribute
`shape`; the length of an unknown shape raises ValueError. Lines 131-162 are skipped when
the only metric is the log-likelihood. -/
def outputRank (onlyLogLik : Bool) : DVal → Except PyErr (Option ℕ)
  | .tensor i | .rv i =>
    if onlyLogLik then .ok none else
    match i.shape with
    | some l => .ok (some l.length)
    | none => .error .valueError
  | .np s _ => if onlyLogLik then .ok none else .ok (some s.length)
  | .host _ | .other => if onlyLogLik then .ok none else .error .attributeError

end Edward
