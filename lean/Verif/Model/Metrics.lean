/-
Model of the metrics of edward/criticisms/evaluate.py:237-476 and of
`with_binary_averaging` (edward/util/metrics.py:10-46).

A tensor of rank at least two is a function `b i j` of its leading indices `b`, its
second-to-last index `i` and its last index `j`, over arbitrary finite index types.
Numbers are real (float32 rounding is not modelled); where `tf.log` may be applied to
zero the result is an extended real. Shapes of `y_true` and `y_pred` agree (broadcasting
is not modelled).
-/
import Mathlib.Analysis.SpecialFunctions.Log.ENNRealLog
import Mathlib.Analysis.SpecialFunctions.Log.Basic
import Mathlib.Data.Fintype.BigOperators

namespace Edward

/-- `tf.reduce_mean` over all entries. -/
noncomputable def reduceMean {A : Type} [Fintype A] (x : A → ℝ) : ℝ := (∑ a, x a) / Fintype.card A

/-- A tensor with leading indices `B`, second-to-last `I`, last `J`. -/
abbrev Tens (B I J : Type) := B → I → J → ℝ

/-- A metric reducing the second-to-last dimension (`axis=-2`), at any shape. -/
abbrev ColMetric := ∀ {B I J : Type} [Fintype I], Tens B I J → Tens B I J → B → J → ℝ

/-- evaluate.py:403-411 -/
noncomputable def meanSquaredError : ColMetric := fun yt yp b j =>
  reduceMean (fun i => (yp b i j - yt b i j) ^ 2)

/-- evaluate.py:415-423 -/
noncomputable def meanAbsoluteError : ColMetric := fun yt yp b j =>
  reduceMean (fun i => |yp b i j - yt b i j|)

/-- `tf.clip_by_value(x, 1e-8, np.inf)` -/
noncomputable def clip (x : ℝ) : ℝ := max x 1e-8

/-- evaluate.py:427-437 -/
noncomputable def meanAbsolutePercentageError : ColMetric := fun yt yp b j =>
  100 * reduceMean (fun i => |(yt b i j - yp b i j) / clip (abs (yt b i j))|)

/-- evaluate.py:441-451 -/
noncomputable def meanSquaredLogarithmicError : ColMetric := fun yt yp b j =>
  reduceMean (fun i => (Real.log (clip (yp b i j) + 1) - Real.log (clip (yt b i j) + 1)) ^ 2)

/-- The `average` keyword: one of the options, or another value. -/
inductive Average
  | none
  | micro
  | macro
  | other
  deriving DecidableEq

/-- What a metric call returns. -/
inductive Evaluation (B J : Type)
  | columns (x : B → J → ℝ)
  | scalar (x : ℝ)

/-- Python exceptions raised here. -/
inductive PyErr
  | typeError
  | valueError
  | nameError
  | keyError
  | notImplementedError
  | unboundLocalError
  | indexError
  | attributeError
  deriving DecidableEq

/-- `with_binary_averaging` for inputs of rank at least two (metrics.py:26-45).
`kwargs.get('average', 'macro')`: pass `.macro` when the option is absent. The error
branch (lines 36-37) formats the undefined name `average_options`. -/
noncomputable def withBinaryAveraging (metric : ColMetric) (average : Average) {B I J : Type}
    [Fintype B] [Fintype I] [Fintype J] (yt yp : Tens B I J) : Except PyErr (Evaluation B J) :=
  match average with
  | .other => .error .nameError
  | .none => .ok (.columns (metric yt yp))
  | .macro => .ok (.scalar (reduceMean (fun a : B × J => metric yt yp a.1 a.2)))
  | .micro =>
    let flat (y : Tens B I J) : Tens Unit Unit (B × I × J) := fun _ _ a => y a.1 a.2.1 a.2.2
    .ok (.scalar (reduceMean (fun a : Unit × (B × I × J) => metric (flat yt) (flat yp) a.1 a.2)))

/-- Inputs of rank below two are first given leading dimensions of size one
(metrics.py:30-32). -/
def expandDims {J : Type} (y : J → ℝ) : Tens Unit Unit J := fun _ _ j => y j

/-- `binary_accuracy`, `sparse_categorical_accuracy`, `multinomial_accuracy`
(evaluate.py:246-248, 277-279, 347-349): same code. -/
noncomputable def accuracy {A : Type} [Fintype A] (yt yp : A → ℝ) : ℝ :=
  open Classical in reduceMean (fun a => if yt a = yp a then 1 else 0)

/-- `tf.argmax` of a row: the first index holding the largest value. -/
noncomputable def argmax {k : ℕ} (y : Fin (k + 1) → ℝ) : Fin (k + 1) :=
  open Classical in (List.finRange (k + 1)).foldl (fun best i => if y best < y i then i else best) 0

/-- evaluate.py:262-264; `yp` holds class numbers. -/
noncomputable def categoricalAccuracy {A : Type} [Fintype A] {k : ℕ} (yt : A → Fin (k + 1) → ℝ)
    (yp : A → ℝ) : ℝ :=
  accuracy (fun a => ((argmax (yt a) : ℕ) : ℝ)) yp

/-- evaluate.py:363-368: the sum over all entries; `tf.log` of zero is `-inf`. -/
noncomputable def klDivergence {A K : Type} [Fintype A] [Fintype K] (yt yp : A → K → ℝ) : EReal :=
  open Classical in
  ∑ a, ∑ k, if yt a k = 0 then 0 else
    (yt a k : EReal) * (ENNReal.log (ENNReal.ofReal (yt a k)) - ENNReal.log (ENNReal.ofReal (yp a k)))

/-- evaluate.py:380-382 -/
noncomputable def hinge {A : Type} [Fintype A] (yt yp : A → ℝ) : ℝ :=
  reduceMean (fun a => max (1 - yt a * yp a) 0)

/-- evaluate.py:394-396 -/
noncomputable def squaredHinge {A : Type} [Fintype A] (yt yp : A → ℝ) : ℝ :=
  reduceMean (fun a => (max (1 - yt a * yp a) 0) ^ 2)

/-- `tf.nn.l2_normalize(x, dim)` of a row, with its default `epsilon=1e-12`. -/
noncomputable def l2Normalize {K : Type} [Fintype K] (x : K → ℝ) (k : K) : ℝ :=
  x k / Real.sqrt (max (∑ j, x j ^ 2) 1e-12)

/-- evaluate.py:474-476, contribution of one row. -/
noncomputable def cosineRow {K : Type} [Fintype K] (yt yp : K → ℝ) : ℝ :=
  ∑ k, l2Normalize yt k * l2Normalize yp k

/-- evaluate.py:466-476: summed over the rows. -/
noncomputable def cosineProximity {A K : Type} [Fintype A] [Fintype K] (yt yp : A → K → ℝ) : ℝ :=
  ∑ a, cosineRow (yt a) (yp a)

/-- evaluate.py:454-463 -/
noncomputable def poissonMetric {A : Type} [Fintype A] (yt yp : A → ℝ) : ℝ :=
  ∑ a, (yp a - yt a * Real.log (yp a + 1e-8))

/-- `tf.nn.sigmoid_cross_entropy_with_logits`: `max(x, 0) - x * z + log(1 + exp(-|x|))`. -/
noncomputable def sigmoidCrossEntropy (z x : ℝ) : ℝ :=
  max x 0 - x * z + Real.log (1 + Real.exp (-|x|))

/-- evaluate.py:295-298 -/
noncomputable def binaryCrossentropy {A : Type} [Fintype A] (yt yp : A → ℝ) : ℝ :=
  reduceMean (fun a => sigmoidCrossEntropy (yt a) (yp a))

/-- `y_pred` of a Bernoulli or binomial output (evaluate.py:138-143): the rounded mean
probability, `random` replacing exactly one half. `tf.round` of a number in [0, 1]. -/
noncomputable def roundPrediction (probs random : ℝ) : ℝ :=
  open Classical in
  let p := if probs = 0.5 then random else probs
  if p ≤ 0.5 then 0 else 1

/-- evaluate.py:217-222, `'log_lik'`: `logp s a` is the log density of data point `a` in
the `s`-th session run. `tf.add_n` over runs of `tf.reduce_mean` over data, divided by
`n_samples`. -/
noncomputable def logLik {A : Type} [Fintype A] {n : ℕ} (logp : Fin n → A → EReal) : EReal :=
  (∑ s, (∑ a, logp s a) / (Fintype.card A : EReal)) / (n : EReal)

end Edward
