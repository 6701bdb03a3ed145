/-
TensorFlow static shapes: `tf.TensorShape` as used by edward
(`is_compatible_with`, `concatenate`). `none` is an unknown rank, `some` a list of
dimensions each of which may be unknown.
-/
import Mathlib.Data.List.Basic

namespace Edward

abbrev Dim := Option Nat
abbrev Shape := Option (List Dim)

/-- `tf.Dimension.is_compatible_with`. -/
def dimCompat : Dim → Dim → Bool
  | some a, some b => a == b
  | _, _ => true

/-- `tf.TensorShape.is_compatible_with` on known ranks. -/
def dimsCompat : List Dim → List Dim → Bool
  | [], [] => true
  | a :: as, b :: bs => dimCompat a b && dimsCompat as bs
  | _, _ => false

/-- `tf.TensorShape.is_compatible_with`. -/
def shapeCompat : Shape → Shape → Bool
  | some a, some b => dimsCompat a b
  | _, _ => true

/-- `tf.TensorShape.concatenate`: unknown rank if either is. -/
def shapeConcat : Shape → Shape → Shape
  | some a, some b => some (a ++ b)
  | _, _ => none

/-- The shape of a host value (`np.shape`), fully known. -/
def hostShape (l : List Nat) : Shape := some (l.map some)

end Edward
