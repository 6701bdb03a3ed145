/-
Model of `dot` (edward/util/tensorflow.py:10-43).

Tensors of static shape and of rank at most two, with real entries; `none` is an entry that is Inf or NaN. TensorFlow raises ValueError when the
graph is built if ranks or dimensions do not fit `tf.matmul`, and InvalidArgumentError when the result is evaluated if an entry is not
finite. The results are exact.
-/
import Mathlib.Data.Real.Basic
import Mathlib.Data.Fintype.Basic
import Mathlib.Algebra.BigOperators.Group.Finset.Basic
import Mathlib.Data.Fintype.BigOperators

namespace Edward.Dot

inductive Tensor
  | scalar (x : Option ℝ)
  | vec (n : ℕ) (v : Fin n → Option ℝ)
  | mat (m n : ℕ) (a : Fin m → Fin n → Option ℝ)

inductive Err | valueError | invalidArgument
  deriving DecidableEq

/-- `tf.verify_tensor_all_finite` -/
def Finite : Tensor → Prop
  | .scalar x => x ≠ none
  | .vec _ v => ∀ i, v i ≠ none
  | .mat _ _ a => ∀ i j, a i j ≠ none

/-- `tf.expand_dims(v, 0)` of a vector -/
def row {n : ℕ} (v : Fin n → Option ℝ) : Tensor := .mat 1 n fun _ j => v j

/-- `tf.expand_dims(y, 1)`: only of a vector is the result a matrix. -/
def column : Tensor → Option Tensor
  | .vec n v => some (.mat n 1 fun i _ => v i)
  | _ => none

/-- `tf.matmul`, on finite entries -/
def matmul : Tensor → Tensor → Except Err Tensor
  | .mat m n a, .mat n' k b =>
    if h : n = n' then .ok (.mat m k fun i j => some (∑ l, (a i l).getD 0 * (b (Fin.cast h l) j).getD 0)) else .error .valueError
  | _, _ => .error .valueError

/-- `tf.reshape(a, [-1])`: the entries row by row -/
def flatten : Tensor → Tensor
  | .mat m n a => .vec (m * n) fun i => a i.divNat i.modNat
  | .vec n v => .vec n v
  | .scalar x => .vec 1 fun _ => x

open Classical in
/-- The value of `dot(x, y)`. -/
noncomputable def dot (x y : Tensor) : Except Err Tensor :=
  let product := match x with
    | .vec _ v => matmul (row v) y
    | _ => match column y with
      | some c => matmul x c
      | none => .error .valueError
  match product with
  | .error e => .error e
  | .ok p => if Finite x ∧ Finite y then .ok (flatten p) else .error .invalidArgument

end Edward.Dot
