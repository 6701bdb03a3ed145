/-
Model of what `DirichletProcess` objects look like to the rest of edward: the dtype they
declare (edward/models/dirichlet_process.py:64-84), what sampling them registers
(lines 123-224) and the shapes of their atoms, with `RandomVariable._tensor_conversion_function`
(edward/models/random_variable.py:304-311) and the value shape of a `ParamMixture`
(edward/models/param_mixture.py:76-93, 216-241).

Assumed of TensorFlow: `tf.while_loop` calls its body once when the graph is built;
`tf.concat` raises `TypeError` on tensors of different dtypes and `ValueError` on static
shapes that differ beyond the axis; `Distribution.sample(s)` calls `_sample_n` with the
product of `s` and reshapes the result `x` to `s` followed by the shape of `x` without its
first axis, raising `ValueError` if the numbers of elements differ. Distributions generated
from TensorFlow sample in the dtype they declare.
-/
import Mathlib.Algebra.BigOperators.Group.List.Basic
import Verif.Model.CheckData
import Verif.Model.GraphQuery
import Verif.Model.Metrics
import Verif.Model.RandomVar

namespace Edward

/-! ### dtypes -/

/-- Random variables by class, with what their dtype is taken from. -/
inductive RVKind where
  /-- generated from a TensorFlow distribution -/
  | tfDist (d : DType)
  /-- empirical.py:53 -/
  | empirical (params : DType)
  /-- point_mass.py:51 -/
  | pointMass (params : DType)
  /-- param_mixture.py:141 -/
  | paramMixture (components : RVKind)
  /-- dirichlet_process.py:79 -/
  | dirichletProcess (base : RVKind)

/-- `rv.dtype`, as passed to `Distribution.__init__`. -/
def RVKind.declared : RVKind → DType
  | .tfDist d => d
  | .empirical d => d
  | .pointMass d => d
  | .paramMixture c => c.declared
  | .dirichletProcess _ => .int32

/-- Constructing the variable, with the dtype of the tensor `rv.value()`. A
`ParamMixture` multiplies its components' samples by a one-hot tensor of dtype
`self.dtype` (param_mixture.py:231-240). A `DirichletProcess` concatenates atoms of
dtype `self.base.dtype` with samples of the base (dirichlet_process.py:65-67, 198-199);
the draws have that dtype (line 165). -/
def RVKind.value : RVKind → Except PyErr DType
  | .tfDist d => .ok d
  | .empirical d => .ok d
  | .pointMass d => .ok d
  | .paramMixture c =>
    match c.value with
    | .error e => .error e
    | .ok d => if d = c.declared then .ok d else .error .typeError
  | .dirichletProcess b =>
    match b.value with
    | .error e => .error e
    | .ok d => if d = b.declared then .ok b.declared else .error .typeError

/-- `_tensor_conversion_function` (random_variable.py:304-311): the dtype of the tensor
`tf.convert_to_tensor(rv, dtype)` returns. -/
def RVKind.convert (k : RVKind) (dtype : Option DType) : Except PyErr DType :=
  match dtype with
  | some d => if d ≠ k.declared then .error .valueError else k.value
  | none => k.value

/-! ### Registration -/

/-- The arguments of `Bernoulli(probs=probs_k)` (dirichlet_process.py:220). -/
def flipsArgs (batch : Shape) : RVArgs :=
  { sampleShape := some [], batchShape := batch, eventShape := some [], value := none,
    canSample := true, collections := [.name] }

/-- `sample` of a `DirichletProcess`: the loop body is built once and creates the variable
`flips`. The Beta variable of lines 70-72 has `collections=[]`. -/
def dpSampleRegister (batch : Shape) (flips : Nat) (r : Registry) : Registry :=
  (rvInit (flipsArgs batch) flips r).1

/-- `DirichletProcess.__init__` through `RandomVariable.__init__`
(random_variable.py:111-138): without `value` it samples before it registers itself. -/
def dpInit (a : RVArgs) (rv flips : Nat) (r : Registry) : Registry × Except RVError Shape :=
  match a.value with
  | some _ => rvInit a rv r
  | none => rvInit a rv (dpSampleRegister a.batchShape flips r)

/-! ### Shapes of atoms -/

/-- A base variable. -/
structure BaseShapes where
  sample : List ℕ
  batch : List ℕ
  event : List ℕ

/-- `base.shape` (random_variable.py:146-148). -/
def BaseShapes.shape (b : BaseShapes) : List ℕ := b.sample ++ b.batch ++ b.event

/-- The shape of `self.base.sample(batch_shape)` (dirichlet_process.py:198): the base's own
sample shape is not used by its `sample` method. -/
def BaseShapes.draw (b : BaseShapes) (batchShape : List ℕ) : List ℕ := batchShape ++ b.batch ++ b.event

/-- `tf.concat([locs, tf.expand_dims(base.sample(batch_shape), 0)], 0)` (lines 197-198) for
`locs` of shape `[k] + batch_shape + event_shape` with `event_shape = base.shape`
(lines 65-66, 119-120). -/
def dpConcat (k : ℕ) (batchShape : List ℕ) (b : BaseShapes) : Except PyErr (List ℕ) :=
  let locs := k :: (batchShape ++ b.shape)
  let new := 1 :: b.draw batchShape
  if locs.tail = new.tail then .ok ((locs.headD 0 + new.headD 0) :: locs.tail) else .error .valueError

/-! ### ParamMixture -/

/-- `Distribution.sample(s)` given the shape of what `_sample_n` returns. -/
def sampleReshape (s x : List ℕ) : Except PyErr (List ℕ) :=
  let final := s ++ x.tail
  if final.prod = x.prod then .ok final else .error .valueError

/-- The shape of the value of `ParamMixture(..., sample_shape=s)`: at construction
`_sample_n` uses the values of `cat` and `components`, which already have the sample
shape, with one more axis if `n == 1` (param_mixture.py:220-226); the component axis is
summed out. `rest` is `batch_shape + event_shape`. -/
def mixtureValueShape (s rest : List ℕ) : Except PyErr (List ℕ) :=
  let x := if s.prod = 1 then 1 :: (s ++ rest) else s ++ rest
  sampleReshape s x

/-- The shape of `rv.sample(s)` after construction (lines 217-219): fresh draws. -/
def mixtureSampleShape (s rest : List ℕ) : Except PyErr (List ℕ) :=
  sampleReshape s (s.prod :: rest)

end Edward
