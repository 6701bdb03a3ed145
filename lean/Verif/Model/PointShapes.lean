/-
Shapes of `Empirical` (edward/models/empirical.py) and `PointMass` (edward/models/point_mass.py): the number of points, static and dynamic shapes of events,
shapes of samples and moments, and `_param_shapes`.

A tensor is known by its static shape, at graph construction, and its dynamic shape, in a session. TensorFlow: a function of the graph raises ValueError when
the static shape shows that it cannot work; `tf.shape` returns the dynamic shape. Only shapes are modelled here; values are in Distributions.lean.
-/
import Verif.Model.Shape
import Verif.Model.Metrics

namespace Edward.PointShapes

/-- `params` -/
structure Params where
  static : Shape
  dynamic : List ℕ

/-- `tf.shape(self._params)[0]`, or 1 after the ValueError for a scalar (empirical.py:47-50). When the rank is not known at construction the slice is built
and fails in the session if the rank is zero (`none`). -/
def empiricalN (p : Params) : Option ℕ :=
  match p.static with
  | some [] => some 1
  | _ => p.dynamic.head?

/-- `TensorShape.__getitem__` of `[1:]`. -/
def shapeTail : Shape → Shape
  | none => none
  | some l => some (l.drop 1)

/-- `self.params.shape[1:]` (empirical.py:84-85) -/
def empiricalEvent (p : Params) : Shape := shapeTail p.static

/-- `tf.shape(self.params)[1:]` (empirical.py:81-82) -/
def empiricalEventTensor (p : Params) : List ℕ := p.dynamic.drop 1

/-- `tf.tile(t, multiples)`: the lengths have to agree. -/
def tile (t multiples : List ℕ) : Except PyErr (List ℕ) :=
  if t.length = multiples.length then .ok (List.zipWith (· * ·) t multiples) else .error .valueError

/-- `len(tensor.shape)`: ValueError if the rank is unknown. -/
def rankOf : Shape → Except PyErr ℕ
  | none => .error .valueError
  | some l => .ok l.length

/-- `Empirical._sample_n` (empirical.py:98-110), the dynamic shape of the result. `tf.gather` replaces the first dimension by the shape of the indices. -/
def empiricalSampleN (p : Params) (n : ℕ) : Except PyErr (List ℕ) := do
  let r ← rankOf p.static
  if r = 0 then
    let e ← rankOf (empiricalEvent p)
    tile (1 :: p.dynamic) (n :: List.replicate e 1)
  else
    .ok (n :: p.dynamic.drop 1)

/-- `PointMass._sample_n` (point_mass.py:87-92) -/
def pointMassSampleN (p : Params) (n : ℕ) : Except PyErr (List ℕ) := do
  let e ← rankOf p.static
  tile (1 :: p.dynamic) (n :: List.replicate e 1)

/-- `Distribution.sample(sample_shape)` of TensorFlow: `n` is the product of `sample_shape` and the first dimension is reshaped. -/
def sample (sampleN : ℕ → Except PyErr (List ℕ)) (sampleShape : List ℕ) : Except PyErr (List ℕ) := do
  let x ← sampleN sampleShape.prod
  .ok (sampleShape ++ x.drop 1)

/-- `tf.reduce_mean(t, 0)`: ValueError for a static scalar; with unknown rank the session fails for a scalar (`none`). -/
def reduceFirst (p : Params) : Except PyErr (Option (List ℕ)) :=
  match p.static with
  | some [] => .error .valueError
  | _ => .ok (match p.dynamic with | [] => none | _ :: l => some l)

/-- `Empirical._mean`; `_stddev` and `_variance` reduce the same way after subtracting the mean (empirical.py:87-96). -/
def empiricalMoment (p : Params) : Except PyErr (Option (List ℕ)) := reduceFirst p

/-- `PointMass._mean`, `_stddev`, `_variance` (point_mass.py:78-85) -/
def pointMassMoment (p : Params) : List ℕ := p.dynamic

/-- A tensor of integers: its shape and its entries. -/
structure IntTensor where
  shape : List ℕ
  entries : List ℕ
  deriving DecidableEq

/-- `Empirical._param_shapes` (empirical.py:62-64) -/
def empiricalParamShapes (sampleShape : List ℕ) : IntTensor := ⟨[sampleShape.length], sampleShape⟩

/-- `PointMass._param_shapes` (point_mass.py:59-62): `tf.expand_dims(..., 0)` -/
def pointMassParamShapes (sampleShape : List ℕ) : IntTensor := ⟨[1, sampleShape.length], sampleShape⟩

end Edward.PointShapes
