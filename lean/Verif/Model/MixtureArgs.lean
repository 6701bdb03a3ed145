/-
Model of the constructor of `ParamMixture` (edward/models/param_mixture.py:46-149) and of the tensor arithmetic of `_sample_n`
(param_mixture.py:216-241) with the broadcasting of TensorFlow, for a mixture without sample shape.

Shapes are listed first dimension first. A static shape is `none` if its rank is unknown; a dimension is `none` if unknown. The tensors
of the second part have known shapes.
-/
import Mathlib.Data.Real.Basic
import Mathlib.Algebra.BigOperators.Group.Finset.Basic
import Verif.Model.CompleteConditional
import Verif.Model.Distributions
import Verif.Model.Metrics

namespace Edward

/-- `component_params`: a dict; another object with a method `values`; an object without. -/
inductive ParamsArg
  | dict
  | mapping
  | other
  deriving DecidableEq

/-- `component_dist`: a subclass of RandomVariable; another class, such as one of tf.contrib.distributions; anything that cannot be
called. Functions are not modelled. -/
inductive DistArg
  | randomVariable
  | otherClass
  | notClass
  deriving DecidableEq

/-- The arguments, and the batch shape of the components they make. -/
structure MixtureArgs where
  validate : Bool
  params : ParamsArg
  dist : DistArg
  weights : Option (List (Option ℕ))
  batch : Option (List (Option ℕ))

/-- `Dimension.is_compatible_with` -/
def dimCompatible : Option ℕ → Option ℕ → Bool
  | some a, some b => a == b
  | _, _ => true

/-- `TensorShape.is_compatible_with` for shapes of known rank. -/
def dimsCompatible : List (Option ℕ) → List (Option ℕ) → Bool
  | [], [] => true
  | a :: s, b :: t => dimCompatible a b && dimsCompatible s t
  | _, _ => false

/-- The tests of lines 94-102. `TensorShape.__getitem__` of a shape of unknown rank gives an unknown dimension or shape; of a scalar
shape it raises IndexError. -/
def mixtureCheck (weights batch : Option (List (Option ℕ))) : Except PyErr Unit :=
  match weights, batch with
  | some [], _ => .error .indexError
  | _, some [] => .error .indexError
  | some w, some (k :: b) =>
    if !dimCompatible (w.getLast?.getD none) k then .error .typeError
    else if !dimsCompatible w.dropLast b then .error .typeError
    else .ok ()
  | _, _ => .ok ()

/-- The constructor up to line 108: the number of components, if known. Line 68 calls `component_params.values()`; `Categorical` raises
ValueError for a scalar; a class which is not a RandomVariable does not take the arguments of lines 88-92, and what cannot be called
is not: TypeError. -/
def mixtureInit (a : MixtureArgs) : Except PyErr (Option ℕ) :=
  if a.params = .other then .error .attributeError
  else if a.validate ∧ a.params ≠ .dict then .error .typeError
  else if a.validate ∧ a.dist ≠ .randomVariable then .error .typeError
  else if a.weights = some [] then .error .valueError
  else if a.dist ≠ .randomVariable then .error .typeError
  else match (if a.validate then mixtureCheck a.weights a.batch else .ok ()) with
    | .error e => .error e
    | .ok () =>
      match a.weights with
      | none => .error .notImplementedError
      | some w => .ok (w.getLast?.getD none)

/-- The constructor up to the depth of `tf.one_hot` in `_sample_n`, which is called for the value of the new random variable and raises
ValueError if the number of components is `None`. -/
def mixtureBuild (a : MixtureArgs) : Except PyErr ℕ :=
  match mixtureInit a with
  | .error e => .error e
  | .ok none => .error .valueError
  | .ok (some k) => .ok k

/-! ### `_sample_n` -/

/-- `tf.one_hot(cat, depth, axis=axis)` -/
noncomputable def oneHot (cat : NDArr ℕ) (depth : ℕ) (axis : ℤ) : Except PyErr (NDArr ℝ) :=
  let a := if axis = -1 then (cat.shape.length : ℤ) else axis
  if 0 ≤ a ∧ a ≤ cat.shape.length then
    .ok { shape := cat.shape.insertIdx a.toNat depth
          get := fun ix => if ix.getD a.toNat 0 = cat.get (ix.eraseIdx a.toNat) then 1 else 0 }
  else .error .valueError

/-- `while t.shape.ndims < n: t = tf.expand_dims(t, -1)` -/
def expandTo (t : NDArr ℝ) (n : ℕ) : NDArr ℝ :=
  { shape := t.shape ++ List.replicate (n - t.shape.length) 1
    get := fun ix => t.get (ix.take t.shape.length) }

/-- Whether two shapes, last dimension first, can be broadcast. -/
def broadcastable : List ℕ → List ℕ → Bool
  | a :: s, b :: t => (a == b || a == 1 || b == 1) && broadcastable s t
  | _, _ => true

/-- `s * t` -/
noncomputable def broadcastMul (s t : NDArr ℝ) : Except PyErr (NDArr ℝ) :=
  if broadcastable s.shape.reverse t.shape.reverse then
    .ok { shape := (bcast s.shape.reverse t.shape.reverse).reverse
          get := fun ix => s.get (bidx s.shape.reverse ix.reverse).reverse * t.get (bidx t.shape.reverse ix.reverse).reverse }
  else .error .valueError

/-- `tf.reduce_sum(t, axis)` -/
noncomputable def reduceSumAxis (t : NDArr ℝ) (axis : ℤ) : Except PyErr (NDArr ℝ) :=
  match resolveAxis t.shape.length axis with
  | none => .error .valueError
  | some a => .ok { shape := t.shape.eraseIdx a
                    get := fun ix => ∑ j ∈ Finset.range (t.shape.getD a 0), t.get (ix.insertIdx a j) }

/-- `_sample_n(1)` at construction (lines 221-241): `cat` and `comp` are the values of `cat` and `components` with a leading axis;
`batchRank` is the rank of `cat.batch_shape`. -/
noncomputable def sampleMixture (depth batchRank eventRank : ℕ) (cat : NDArr ℕ) (comp : NDArr ℝ) : Except PyErr (NDArr ℝ) :=
  let axis : ℤ := (comp.shape.length : ℤ) - 1 - (eventRank + batchRank : ℕ)
  match oneHot cat depth axis with
  | .error e => .error e
  | .ok selecter =>
    match broadcastMul comp (expandTo selecter comp.shape.length) with
    | .error e => .error e
    | .ok prod => reduceSumAxis prod axis

end Edward
